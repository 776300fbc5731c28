import Verif.JamLex.Model
import Verif.JamLex.Spec
/-
Lemmas on the loops of the reader.
-/
namespace Verif.JamLex

theorem blank_iff (c : Char) : blank c = true ↔ IsBlank c := by
  unfold blank IsBlank
  simp [or_assoc]

theorem countLine_ends (c : Char) (s : List Char) (line : Nat) : countLine c s line + lineEnds s = line + lineEnds (c :: s) := by
  unfold countLine
  simp only [lineEnds]
  by_cases h1 : c = '\n'
  · simp [h1]; omega
  · by_cases h2 : c = '\r'
    · by_cases h3 : s.head? = some '\n'
      · simp [h2, h3]
      · simp [h2, h3]; omega
    · simp [h1, h2]

theorem lineEnds_other {c : Char} (h1 : c ≠ '\n') (h2 : c ≠ '\r') (s : List Char) : lineEnds (c :: s) = lineEnds s := by
  simp [lineEnds, h1, h2]

theorem lex_quoted (p : Bool) (w t : List Char) : ∀ (m : Bool) (acc cur : List Char) (line : Nat),
    ∃ line', line' + lineEnds t = line + lineEnds (inQuotes w ++ '"' :: t) ∧
      lex p false true m acc cur line (inQuotes w ++ '"' :: t) = lex p false false true (acc ++ cur ++ w) [] line' t := by
  induction w with
  | nil =>
    intro m acc cur line
    refine ⟨line, ?_, ?_⟩
    · simp only [inQuotes, List.nil_append]; rw [lineEnds_other (by decide) (by decide)]
    · simp only [inQuotes, List.nil_append]
      rw [lex.eq_def]
      simp
  | cons c w ih =>
    intro m acc cur line
    by_cases hc : c = '"' ∨ c = '\\'
    · obtain ⟨line', h1, h2⟩ := ih true (acc ++ cur) [c] line
      have hn : c ≠ '\n' ∧ c ≠ '\r' := by rcases hc with rfl | rfl <;> decide
      refine ⟨line', ?_, ?_⟩
      · rw [h1]
        simp only [inQuotes, if_pos hc, List.cons_append, List.nil_append]
        rw [lineEnds_other (c := '\\') (by decide) (by decide), lineEnds_other hn.1 hn.2]
      · simp only [inQuotes, if_pos hc, List.cons_append, List.nil_append]
        rw [lex.eq_def]
        simp [h2]
    · obtain ⟨line', h1, h2⟩ := ih m acc (cur ++ [c]) (countLine c (inQuotes w ++ '"' :: t) line)
      refine ⟨line', ?_, ?_⟩
      · rw [h1, countLine_ends]
        simp only [inQuotes, if_neg hc, List.cons_append, List.nil_append]
      · simp only [inQuotes, if_neg hc, List.cons_append, List.nil_append]
        rw [lex.eq_def]
        have hc1 : c ≠ '"' := fun e => hc (.inl e)
        have hc2 : c ≠ '\\' := fun e => hc (.inr e)
        simp [h2, hc1, hc2]

/-- What is read of a word so far: its value and whether it has begun. -/
theorem lex_piece (p : Bool) (q : Piece) (hq : q.Ok) (t : List Char) (m : Bool) (acc cur : List Char) (line : Nat)
    (hb : (cur ≠ [] ∨ m = true) ∨ ¬ (∃ s, q.text = '#' :: s)) :
    ∃ line' acc' cur', line' + lineEnds t = line + lineEnds (q.text ++ t) ∧
      lex p false false m acc cur line (q.text ++ t) = lex p false false (m || q.special) acc' cur' line' t ∧
      acc' ++ cur' = acc ++ cur ++ q.value ∧ (cur' ≠ [] ∨ (m || q.special) = true) ∧ ((¬ ∃ w, q = .quoted w) → cur' ≠ []) := by
  cases q with
  | plain c =>
    obtain ⟨h1, h2, h3⟩ := hq
    have hbl : blank c = false := by
      rw [← Bool.not_eq_true, blank_iff]; exact h1
    have hn1 : c ≠ '\n' := by rintro rfl; exact h1 (by simp [IsBlank])
    have hn2 : c ≠ '\r' := by rintro rfl; exact h1 (by simp [IsBlank])
    refine ⟨line, acc, cur ++ [c], ?_, ?_, by simp [Piece.value], by simp, by simp⟩
    · simp only [Piece.text, List.cons_append, List.nil_append]
      rw [lineEnds_other hn1 hn2]
    · simp only [Piece.text, List.cons_append, List.nil_append]
      rw [lex.eq_def]
      by_cases hh : c = '#'
      · have hb' : cur ≠ [] ∨ m = true := by
          rcases hb with hb | hb
          · exact hb
          · exact absurd ⟨[], by simp [Piece.text, hh]⟩ hb
        subst hh
        simp only [hbl, Piece.special, decide_true, Bool.or_true]
        simp [hb']
      · simp [hbl, hh, h2, h3, Piece.special]
  | escaped c =>
    refine ⟨line, acc ++ cur, [c], ?_, ?_, by simp [Piece.value], by simp, by simp⟩
    · simp only [Piece.text, List.cons_append, List.nil_append]
      rw [lineEnds_other (c := '\\') (by decide) (by decide), lineEnds_other hq.1 hq.2]
    · simp only [Piece.text, List.cons_append, List.nil_append]
      rw [lex.eq_def]
      simp [Piece.special, show blank '\\' = false by decide]
  | quoted w =>
    obtain ⟨line', h1, h2⟩ := lex_quoted p w t true (acc ++ cur) [] line
    refine ⟨line', acc ++ cur ++ w, [], ?_, ?_, by simp [Piece.value], by simp [Piece.special], ?_⟩
    · rw [h1]
      simp only [Piece.text, List.cons_append, List.append_assoc, List.nil_append]
      rw [lineEnds_other (c := '"') (by decide) (by decide)]
    · simp only [Piece.text, List.cons_append, List.append_assoc, List.nil_append]
      rw [lex.eq_def]
      simp only [List.append_nil] at h2
      simp [Piece.special, show blank '"' = false by decide, h2]
    · intro h; exact absurd ⟨w, rfl⟩ h

theorem lex_pieces (p : Bool) (qs : List Piece) (t : List Char) : ∀ (m : Bool) (acc cur : List Char) (line : Nat),
    (∀ q ∈ qs, q.Ok) → (cur ≠ [] ∨ m = true) →
    ∃ line' acc' cur', line' + lineEnds t = line + lineEnds (qs.flatMap Piece.text ++ t) ∧
      lex p false false m acc cur line (qs.flatMap Piece.text ++ t) = lex p false false (m || qs.any Piece.special) acc' cur' line' t ∧
      acc' ++ cur' = acc ++ cur ++ qs.flatMap Piece.value ∧ (cur' ≠ [] ∨ (m || qs.any Piece.special) = true) ∧
      (qs = [] → cur' = cur) ∧ (∀ q, qs.getLast? = some q → (¬ ∃ w, q = .quoted w) → cur' ≠ []) := by
  induction qs with
  | nil => intro m acc cur line _ h; exact ⟨line, acc, cur, by simp, by simp, by simp, by simpa using h, fun _ => rfl, by simp⟩
  | cons q qs ih =>
    intro m acc cur line hok h
    obtain ⟨l1, a1, c1, h1, h2, h3, h4, h5⟩ := lex_piece p q (hok q (by simp)) (qs.flatMap Piece.text ++ t) m acc cur line (.inl h)
    obtain ⟨l2, a2, c2, g1, g2, g3, g4, g5, g6⟩ := ih (m || q.special) a1 c1 l1 (fun q hq => hok q (by simp [hq])) h4
    refine ⟨l2, a2, c2, ?_, ?_, ?_, ?_, by simp, ?_⟩
    · rw [g1, h1]; simp
    · simp only [List.flatMap_cons, List.append_assoc, List.any_cons]
      rw [h2, g2, Bool.or_assoc]
    · rw [g3, h3]; simp
    · simpa [Bool.or_assoc] using g4
    · intro q' hq' hnq
      cases qs with
      | nil =>
        simp at hq'
        subst hq'
        rw [g5 rfl]
        exact h5 hnq
      | cons r rs => exact g6 q' (by simpa [List.getLast?_cons_cons] using hq') hnq

theorem lex_word_gen (p : Bool) (q : Piece) (qs : List Piece) (t : List Char) (line : Nat) (hok : ∀ r ∈ q :: qs, r.Ok)
    (hf : ∀ s, q.text ≠ '#' :: s) :
    ∃ line' acc' cur', line' + lineEnds t = line + lineEnds ((q :: qs).flatMap Piece.text ++ t) ∧
      next p line ((q :: qs).flatMap Piece.text ++ t) = lex p false false ((q :: qs).any Piece.special) acc' cur' line' t ∧
      acc' ++ cur' = (q :: qs).flatMap Piece.value ∧ (cur' ≠ [] ∨ (q :: qs).any Piece.special = true) ∧
      (∀ r, (q :: qs).getLast? = some r → (¬ ∃ w, r = .quoted w) → cur' ≠ []) := by
  obtain ⟨l1, a1, c1, h1, h2, h3, h4, h5⟩ := lex_piece p q (hok q (by simp)) (qs.flatMap Piece.text ++ t) false [] [] line
    (.inr (fun ⟨s, e⟩ => hf s e))
  obtain ⟨l2, a2, c2, g1, g2, g3, g4, g5, g6⟩ := lex_pieces p qs t (false || q.special) a1 c1 l1 (fun q hq => hok q (by simp [hq])) h4
  refine ⟨l2, a2, c2, ?_, ?_, ?_, ?_, ?_⟩
  · rw [g1, h1]; simp
  · simp only [List.flatMap_cons, List.append_assoc, List.any_cons, next]
    rw [h2, g2]; simp
  · rw [g3, h3]; simp
  · simpa using g4
  · intro r hr hnq
    cases qs with
    | nil =>
      simp at hr
      subst hr
      rw [g5 rfl]
      exact h5 hnq
    | cons r' rs => exact g6 r (by simpa [List.getLast?_cons_cons] using hr) hnq

theorem lex_comment (p : Bool) (w t : List Char) (e : Char) (he : e = '\n' ∨ e = '\r') (line : Nat) :
    '\n' ∉ w → '\r' ∉ w →
    lex p true false false [] [] line (w ++ e :: t) = lex p false false false [] [] (countLine e t line) t ∧
      lineEnds (w ++ e :: t) = lineEnds (e :: t) := by
  induction w with
  | nil =>
    intro _ _
    refine ⟨?_, rfl⟩
    simp only [List.nil_append]
    rw [lex.eq_def]
    rcases he with rfl | rfl <;> simp [show blank '\n' = true by decide, show blank '\r' = true by decide]
  | cons c w ih =>
    intro h1 h2
    have hc1 : c ≠ '\n' := by rintro rfl; simp at h1
    have hc2 : c ≠ '\r' := by rintro rfl; simp at h2
    obtain ⟨g1, g2⟩ := ih (fun h => h1 (by simp [h])) (fun h => h2 (by simp [h]))
    constructor
    · simp only [List.cons_append]
      rw [lex.eq_def]
      simp [hc1, hc2, g1]
    · simp only [List.cons_append]
      rw [lineEnds_other hc1 hc2, g2]

theorem actionLoop_balanced {b : List Char} (h : Balanced b) : ∀ (level : Nat) (acc : List Char) (line : Nat) (t : List Char),
    1 ≤ level → ∃ line', line' + lineEnds t = line + lineEnds (b ++ t) ∧
      actionLoop level acc line (b ++ t) = actionLoop level (acc ++ b) line' t := by
  induction h with
  | nil => intro level acc line t _; exact ⟨line, rfl, by simp⟩
  | @char c s h1 h2 _ ih =>
    intro level acc line t hl
    obtain ⟨line', g1, g2⟩ := ih level (acc ++ [c]) (countLine c (s ++ t) line) t hl
    refine ⟨line', by rw [g1, countLine_ends]; rfl, ?_⟩
    simp only [List.cons_append]
    rw [actionLoop]
    simp [h1, h2, g2]
  | @pair b s _ _ ih1 ih2 =>
    intro level acc line t hl
    obtain ⟨l1, g1, g2⟩ := ih1 (level + 1) (acc ++ ['{']) line ('}' :: (s ++ t)) (by omega)
    obtain ⟨l2, k1, k2⟩ := ih2 level (acc ++ ['{'] ++ b ++ ['}']) l1 t hl
    refine ⟨l2, ?_, ?_⟩
    · rw [k1]
      rw [lineEnds_other (c := '}') (by decide) (by decide)] at g1
      rw [g1]
      simp only [List.cons_append, List.append_assoc]
      rw [lineEnds_other (c := '{') (by decide) (by decide)]
    · simp only [List.cons_append, List.append_assoc]
      rw [actionLoop]
      simp only [if_true]
      rw [g2, actionLoop]
      have : ¬ level + 1 = 1 := by omega
      simp only [show ('}' : Char) ≠ '{' by decide, if_false, if_true, this, Nat.add_sub_cancel]
      simp only [List.append_assoc, List.cons_append, List.nil_append] at k2 ⊢
      rw [k2]

end Verif.JamLex
