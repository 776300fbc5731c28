import Verif.JamExpand.Lemmas

/-!
# Expansion of variables: the properties
-/

namespace Verif.JamExpand

/-- **C157.**  An argument of a rule expands to what it means: all ways to choose a value for each variable in it, in order, with the
text between them as it is; the names of variables may be made of variables in the same way. -/
theorem expand_means (j : State) (t : Text) (hp : t.Plain) (hi : t.Inside) :
    expand j t.write = (t.mean (contents j [])).map fun r => r.map Prod.fst := by
  unfold expand
  rw [← expandAux_text j t t.write.length (Nat.le_refl _) hp hi]
  rfl

theorem contents_seen (j : State) : ∀ (seen s : List MC), (':', true) ∉ s → ('[', true) ∉ s →
    contents j seen s = (j.var ((seen ++ s).map Prod.fst)).getD []
  | seen, [], _, _ => by rw [contents, List.append_nil]
  | seen, c :: s, h1, h2 => by
    simp only [List.mem_cons, not_or] at h1 h2
    rw [contents, if_neg fun h => h1.1 h.symm, if_neg fun h => h2.1 h.symm, contents_seen j _ s h1.2 h2.2]
    simp

/-- **C157.**  A text in parentheses without a colon or bracket that was written there is the name of a variable: those that come from
values of variables have no meaning. -/
theorem contents_name (j : State) (s : List MC) (h1 : (':', true) ∉ s) (h2 : ('[', true) ∉ s) :
    contents j [] s = (j.var (s.map Prod.fst)).getD [] := by
  rw [contents_seen j [] s h1 h2]
  rfl

/-- **C157.**  The first colon or bracket that was written in the parentheses ends the name, and what comes after it says what is done
with the values of the variable. -/
theorem contents_modified (j : State) (s r : List MC) (h1 : (':', true) ∉ s) (h2 : ('[', true) ∉ s) :
    contents j [] (s ++ (':', true) :: r) = j.colon (j.var (s.map Prod.fst)) r ∧
      contents j [] (s ++ ('[', true) :: r) = j.bracket ((j.var (s.map Prod.fst)).getD []) r := by
  have key : ∀ (s seen : List MC), (':', true) ∉ s → ('[', true) ∉ s →
      contents j seen (s ++ (':', true) :: r) = j.colon (j.var ((seen ++ s).map Prod.fst)) r ∧
        contents j seen (s ++ ('[', true) :: r) = j.bracket ((j.var ((seen ++ s).map Prod.fst)).getD []) r := by
    intro s
    induction s with
    | nil =>
      intro seen _ _
      rw [List.append_nil, List.nil_append, List.nil_append, contents, contents, if_pos rfl, if_neg (by decide), if_pos rfl]
      exact ⟨rfl, rfl⟩
    | cons c s ih =>
      intro seen h1 h2
      simp only [List.mem_cons, not_or] at h1 h2
      have := ih (seen ++ [c]) h1.2 h2.2
      rw [List.cons_append, List.cons_append, contents, contents, if_neg fun h => h1.1 h.symm, if_neg fun h => h2.1 h.symm,
        if_neg fun h => h1.1 h.symm, if_neg fun h => h2.1 h.symm, this.1, this.2]
      simp
  exact key s [] h1 h2

/-- **C157.**  An argument without variables stands for itself. -/
theorem expand_plain (j : State) (s : List Char) (h : '$' ∉ s) : expand j s = [s] := by
  have key : ∀ s : List Char, '$' ∉ s → splitDollar (s.map fun c => (c, true)) = none := by
    intro s
    induction s with
    | nil => intro _; rfl
    | cons c s ih =>
      intro h
      simp only [List.mem_cons, not_or] at h
      rw [List.map_cons, splitDollar, if_neg fun hx => h.1 hx.1.symm, ih h.2]
      rfl
  unfold expand
  cases s with
  | nil => rfl
  | cons c s =>
    rw [List.length_cons, expandAux, key _ h]
    simp [Function.comp_def]

/-- **C157.**  A list of arguments expands to the expansions of its members, one after the other. -/
theorem expand_list (j : State) (l : List (List Char)) : expandList j l = l.flatMap (expand j) := by
  have key : ∀ (l : List (List Char)) (r : List (List Char)), l.foldl (fun r s => r ++ expand j s) r = r ++ l.flatMap (expand j) := by
    intro l
    induction l with
    | nil => intro r; simp
    | cons a l ih => intro r; rw [List.foldl_cons, ih, List.flatMap_cons, List.append_assoc]
  exact key l []

/-- A variable is in a text, and not in another variable. -/
inductive Text.Has (v : Text) : Text → Prop where
  | here (t : Text) : Has v (.var v t)
  | lit {t : Text} (c : Char) : Has v t → Has v (.lit c t)
  | var {t : Text} (u : Text) : Has v t → Has v (.var u t)

/-- **C157.**  If one of its variables has no value, an argument expands to nothing. -/
theorem expand_empty (j : State) (t v : Text) (hp : t.Plain) (hi : t.Inside) (hv : v.Has t)
    (he : ∀ name ∈ v.mean (contents j []), contents j [] name = []) : expand j t.write = [] := by
  rw [expand_means j t hp hi, List.map_eq_nil_iff]
  clear hp hi
  induction hv with
  | here t =>
    rw [Text.mean, List.flatMap_eq_nil_iff]
    intro name hn
    rw [he name hn]
    rfl
  | lit c _ ih =>
    rw [Text.mean, ih]
    rfl
  | var u _ ih =>
    rw [Text.mean, ih]
    simp

/-- Some variables: `x` is `a b`, `y` is `1 x`, `a` is `c:d`, `c:d` is `z`, and `e` has no value. -/
def sample : State where
  var := fun n =>
    if n = ['x'] then some [['a'], ['b']]
    else if n = ['y'] then some [['1'], ['x']]
    else if n = ['a'] then some [['c', ':', 'd']]
    else if n = ['c', ':', 'd'] then some [['z']]
    else none
  colon := fun l _ => (l.getD []).map List.reverse
  bracket := fun l _ => l.take 1

/-- `p$(x).$(y)q` -/
def sampleText : Text := .lit 'p' (.var (.lit 'x' .nil) (.lit '.' (.var (.lit 'y' .nil) (.lit 'q' .nil))))

example : sampleText.Plain ∧ sampleText.Inside ∧ sampleText.write = "p$(x).$(y)q".toList := by
  refine ⟨?_, ?_, by decide +kernel⟩ <;> simp [sampleText, Text.Plain, Text.Inside, Text.NoParens, Text.write]

example : (Text.lit 'e' .nil).Has (.var (.lit 'x' .nil) (.var (.lit 'e' .nil) .nil)) ∧
    ∀ name ∈ (Text.lit 'e' .nil).mean (contents sample []), contents sample [] name = [] := by
  refine ⟨.var _ (.here _), ?_⟩
  decide +kernel

example : expand sample "p$(x).$(y)q".toList = ["pa.1q".toList, "pa.xq".toList, "pb.1q".toList, "pb.xq".toList] ∧
    expand sample "$($($(x)))".toList = ["z".toList] ∧ expand sample "u$(x)$(e)".toList = [] ∧
    expand sample "$(a:M)(".toList = ["d:c(".toList] ∧ expand sample "$(y[2])$".toList = ["1$".toList] := by
  decide +kernel

end Verif.JamExpand
