import Verif.JamExpand.Spec

/-!
# Lemmas on the expansion of variables
-/

namespace Verif.JamExpand

/-- The characters of an argument, all of them marked. -/
def marked (s : List Char) : List MC := s.map fun c => (c, true)

theorem close_text (v : Text) : ∀ (d : Nat) (rest : List MC), 1 ≤ d → v.NoParens →
    splitClose d (marked v.write ++ rest) = (marked v.write ++ (splitClose d rest).1, (splitClose d rest).2) := by
  induction v with
  | nil => intro d rest _ _; rfl
  | lit c t ih =>
    intro d rest hd ⟨h1, h2, h3⟩
    simp only [Text.write, marked, List.map_cons, List.cons_append]
    rw [splitClose]
    simp only [h1, h2, if_false]
    have := ih d rest hd h3
    unfold marked at this
    rw [this]
  | var v t ihv iht =>
    intro d rest hd ⟨hv, ht⟩
    have e : marked (Text.var v t).write ++ rest =
        ('$', true) :: ('(', true) :: (marked v.write ++ (')', true) :: (marked t.write ++ rest)) := by
      simp [Text.write, marked]
    have e2 : ∀ x : List MC, marked (Text.var v t).write ++ x =
        ('$', true) :: ('(', true) :: (marked v.write ++ (')', true) :: (marked t.write ++ x)) := by
      intro x
      simp [Text.write, marked]
    rw [e, e2, splitClose, if_neg (by decide), if_neg (by decide), splitClose, if_neg (by decide), if_pos (by decide),
      ihv (d + 1) _ (by omega) hv, splitClose, if_pos rfl, if_neg (by omega), Nat.add_sub_cancel, iht d rest hd ht]

theorem noParens_inside (v : Text) : v.NoParens → v.Inside := by
  induction v with
  | nil => intro _; trivial
  | lit c t ih => exact fun h => ih h.2.2
  | var v t _ iht => exact fun h => ⟨h.1, iht h.2⟩

theorem product_cons (j : State) (c : MC) (pre : List MC) (vars suffixes : List (List MC)) :
    product j (c :: pre) vars suffixes = (product j pre vars suffixes).map (c :: ·) := by
  unfold product
  simp only [List.map_flatMap, List.map_map]
  rfl

/-- A character that does not begin a variable stays. -/
theorem expandAux_lit (j : State) (n : Nat) (c : MC) (s : List MC) (h : ¬ (c.1 = '$' ∧ (s.head?.map Prod.fst) = some '(')) :
    expandAux j (n + 1) (c :: s) = (expandAux j (n + 1) s).map (c :: ·) := by
  rw [expandAux, expandAux, splitDollar, if_neg h]
  cases splitDollar s with
  | none => rfl
  | some r =>
    obtain ⟨pre, r⟩ := r
    simp only [Option.map_some]
    cases hr : splitClose 1 r with
    | mk v o =>
      cases o with
      | none => exact product_cons ..
      | some t => exact product_cons ..

theorem write_head {t : Text} {c : Char} (h : (marked t.write).head?.map Prod.fst = some c) : t.write.head? = some c := by
  unfold marked at h
  cases hw : t.write with
  | nil => rw [hw] at h; cases h
  | cons a l =>
    rw [hw] at h
    exact h

theorem expandAux_text (j : State) (t : Text) : ∀ n, t.write.length ≤ n → t.Plain → t.Inside →
    expandAux j n (marked t.write) = t.mean (contents j []) := by
  induction t with
  | nil =>
    intro n _ _ _
    cases n <;> rfl
  | lit c t ih =>
    intro n hn hp hi
    simp only [Text.write, List.length_cons] at hn
    obtain ⟨n, rfl⟩ : ∃ k, n = k + 1 := ⟨n - 1, by omega⟩
    have e : marked (Text.lit c t).write = (c, true) :: marked t.write := rfl
    rw [e, expandAux_lit j n _ _ fun h => hp.1 h.1 (write_head h.2), ih (n + 1) (by omega) hp.2 hi]
    rfl
  | var v t ihv iht =>
    intro n hn hp hi
    simp only [Text.write, List.length_cons, List.length_append] at hn
    obtain ⟨n, rfl⟩ : ∃ k, n = k + 1 := ⟨n - 1, by omega⟩
    have e : marked (Text.var v t).write = ('$', true) :: ('(', true) :: (marked v.write ++ (')', true) :: marked t.write) := by
      simp [Text.write, marked]
    have hc : splitClose 1 (marked v.write ++ (')', true) :: marked t.write) = (marked v.write, some (marked t.write)) := by
      rw [close_text v 1 _ (by omega) hi.1, splitClose, if_pos rfl, if_pos rfl]
      simp
    rw [e, expandAux, splitDollar, if_pos ⟨rfl, rfl⟩]
    simp only [List.tail_cons]
    rw [hc]
    simp only
    rw [ihv n (by omega) hp.1 (noParens_inside v hi.1), iht n (by omega) hp.2 hi.2]
    rfl

end Verif.JamExpand
