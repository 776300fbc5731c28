import Verif.JamNames.Lemmas
/-
C158: marks of names are taken off and put on without loss, and strings are split into their words.
-/
namespace Verif.JamNames
open Verif.Common (Res)

/-- The mark and what is left when it is taken off make up the name. -/
theorem grist_parts (name : List Char) : extractGrist name ++ stripGrist name = name := by
  unfold extractGrist stripGrist
  split
  · cases gristEnd name with
    | none => rfl
    | some e => exact List.take_append_drop _ _
  · rfl

/-- The mark of a name with one is the text up to the first closing angle bracket. -/
theorem grist_marked {name mark rest : List Char} (h : Marked name mark rest) :
    extractGrist name = mark ∧ stripGrist name = rest := by
  obtain ⟨body, hb, hm, hn⟩ := h
  subst hm
  have hn' : name = ('<' :: body) ++ '>' :: rest := by rw [hn]; simp
  have he : gristEnd name = some (body.length + 1) := by
    rw [hn', gristEnd_of (by simp [hb])]; rfl
  have hc : name.length > 1 ∧ name[0]? = some '<' := by rw [hn']; simp; omega
  unfold extractGrist stripGrist
  rw [if_pos hc, if_pos hc, he]
  have hl : body.length + 1 + 1 = ('<' :: body ++ ['>']).length := by simp
  constructor
  · simp only [hl, hn, List.take_left]
  · simp only [hl, hn, List.drop_left]

example : Marked "<src!lib>a>b.c".toList "<src!lib>".toList "a>b.c".toList := ⟨"src!lib".toList, by decide, rfl, rfl⟩

/-- A name without a mark has none to take off. -/
theorem grist_unmarked {name : List Char} (h : ¬ ∃ mark rest, Marked name mark rest) :
    extractGrist name = [] ∧ stripGrist name = name := by
  unfold extractGrist stripGrist
  by_cases hc : name.length > 1 ∧ name[0]? = some '<'
  · rw [if_pos hc, if_pos hc]
    cases he : gristEnd name with
    | none => exact ⟨rfl, rfl⟩
    | some e =>
      exfalso
      obtain ⟨a, r, h1, h2, _⟩ := gristEnd_some he
      cases a with
      | nil => rw [h1] at hc; simp at hc
      | cons x body =>
        have hx : x = '<' := by have := hc.2; rw [h1] at this; simpa using this
        subst hx
        exact h ⟨'<' :: body ++ ['>'], r, body, fun m => h2 (by simp [m]), rfl, by rw [h1]; simp⟩
  · rw [if_neg hc, if_neg hc]; exact ⟨rfl, rfl⟩

example : ¬ ∃ mark rest, Marked "a<b>".toList mark rest := by
  rintro ⟨mark, rest, body, _, hm, hn⟩
  subst hm
  have := congrArg List.head? hn
  simp at this

/-- A name with the mark of another one: it has that mark, and without it is the name given. -/
theorem grist_add {old mark rest : List Char} (h : Marked old mark rest) (new : List Char) :
    addGrist old new = mark ++ new ∧ extractGrist (addGrist old new) = mark ∧ stripGrist (addGrist old new) = new := by
  have h1 := (grist_marked h).1
  obtain ⟨body, hb, hm, _⟩ := h
  have h2 : addGrist old new = mark ++ new := by
    unfold addGrist
    simp only [h1]
    rw [if_neg (by rw [hm]; simp)]
  exact ⟨h2, grist_marked ⟨body, hb, hm, h2⟩⟩

/-- A name is not changed by the mark of a name without one, and a name gets its own mark back. -/
theorem grist_add_back (old : List Char) : addGrist old (stripGrist old) = old ∧
    ((¬ ∃ mark rest, Marked old mark rest) → ∀ new, addGrist old new = new) := by
  constructor
  · have := grist_parts old
    unfold addGrist
    by_cases h : extractGrist old = []
    · simp only [h, if_true]
      rw [h] at this; exact this
    · simp only [if_neg h]; exact this
  · intro h new
    unfold addGrist
    simp [(grist_unmarked h).1]

/-- A string has its words in one way only. -/
theorem words_unique {d : Char → Bool} {l : List Char} {ws vs : List (List Char)} (h : Words d l ws) (h' : Words d l vs) : ws = vs :=
  h.unique h'

/-- No word is lost, none is empty, and no character of a word is a separator: together the words are
    the string without its separators. -/
theorem words_keep {d : Char → Bool} {l : List Char} {ws : List (List Char)} (h : Words d l ws) :
    ws.flatten = l.filter (fun c => !d c) ∧ ∀ w ∈ ws, w ≠ [] ∧ ∀ c ∈ w, d c = false := by
  induction h with
  | nil => simp
  | skip hc _ ih => exact ⟨by simp [hc, ih.1], ih.2⟩
  | @word w l ws h0 hw _ _ ih =>
    refine ⟨?_, ?_⟩
    · have : w.filter (fun c => !d c) = w := List.filter_eq_self.2 (fun c hc => by simp [hw c hc])
      simp [this, ih.1]
    · intro v hv
      rcases List.mem_cons.1 hv with hv | hv
      · rw [hv]; exact ⟨h0, hw⟩
      · exact ih.2 v hv

/-- The rule that splits strings returns the words of each one, in order, where any character of the
    arguments after them separates words. It never signals an error. -/
theorem split_words (strings splitChars : List (List Char)) :
    ∃ wss : List (List (List Char)), builtinSplit strings splitChars = .ok wss.flatten ∧ wss.length = strings.length ∧
      ∀ (i : Nat) (s : List Char) (ws : List (List Char)), strings[i]? = some s → wss[i]? = some ws →
        Words (fun c => decide (∃ t ∈ splitChars, c ∈ t)) s ws := by
  have hd : delimiters splitChars = fun c => decide (∃ t ∈ splitChars, c ∈ t) := by
    funext c
    unfold delimiters
    rw [Bool.eq_iff_iff]
    simp
  unfold builtinSplit
  rw [hd]
  generalize (fun c => decide (∃ t ∈ splitChars, c ∈ t)) = d
  suffices ∀ result, ∃ wss : List (List (List Char)), splitStrings d result strings = .ok (result ++ wss.flatten) ∧
      wss.length = strings.length ∧ ∀ (i : Nat) (s : List Char) (ws : List (List Char)), strings[i]? = some s → wss[i]? = some ws → Words d s ws by
    simpa using this []
  induction strings with
  | nil => intro result; exact ⟨[], by simp [splitStrings], rfl, by simp⟩
  | cons str strings ih =>
    intro result
    obtain ⟨ws, h1, h2⟩ := splitString_words d str
    obtain ⟨wss, h3, h4, h5⟩ := ih (result ++ ws)
    refine ⟨ws :: wss, ?_, by simp [h4], ?_⟩
    · simp [splitStrings, h1, h3]
    · intro i s vs hs hv
      cases i with
      | zero => simp at hs hv; subst hs; subst hv; exact h2
      | succ i => exact h5 i s vs (by simpa using hs) (by simpa using hv)

example : builtinSplit ["/usr//bin:".toList, "::".toList, "a".toList] ["/".toList, ":".toList] =
    .ok ["usr".toList, "bin".toList, "a".toList] := by decide +kernel

/-- An environment variable that holds a list is split into the words between its delimiters. -/
theorem tokenize_words (delim : Char) (var : List Char) :
    ∃ ws, tokenize delim var = some ws ∧ Words (· == delim) var ws := by
  obtain ⟨ws, h1, h2⟩ := tokenizeLoop_words delim var var [] [] [] (by simp) (by simp)
  exact ⟨ws, by simpa [tokenize] using h1, by simpa using h2⟩

example : tokenize ':' ":/usr/bin::/bin:".toList = some ["/usr/bin".toList, "/bin".toList] := by decide +kernel

/-- A list of words is read back from the variable it was written to, each word followed by a delimiter. -/
theorem tokenize_join (delim : Char) (ws : List (List Char)) (h : ∀ w ∈ ws, w ≠ [] ∧ delim ∉ w) :
    tokenize delim (ws.flatMap (fun w => w ++ [delim])) = some ws := by
  obtain ⟨vs, h1, h2⟩ := tokenize_words delim (ws.flatMap (fun w => w ++ [delim]))
  have : Words (· == delim) (ws.flatMap (fun w => w ++ [delim])) ws := by
    clear h1 h2
    induction ws with
    | nil => exact .nil
    | cons w ws ih =>
      have hw := h w (by simp)
      simp only [List.flatMap_cons, List.append_assoc, List.cons_append, List.nil_append]
      refine .word hw.1 ?_ (by simp) (.skip (by simp) (ih (fun v hv => h v (by simp [hv]))))
      intro c hc
      have : c ≠ delim := fun e => hw.2 (e ▸ hc)
      simpa using this
  rw [h1, h2.unique this]

example : ∀ w ∈ ["/usr/bin".toList, "/bin".toList], w ≠ [] ∧ ':' ∉ w := by decide

end Verif.JamNames
