/-
C121: floating point literals.
-/
import Verif.Reader.FloatSpec
import Verif.Reader.StringProps

namespace Verif.Reader
open LexerSpec

theorem decimalDigit_digit {b : Byte} {d : Nat} (h : IsDigit b d) (hd : d < 10) : decimalDigit b = some d := by
  have := digit_all (fun b d => decide (d < 10 → decimalDigit b = some d)) (by decide +kernel) h
  exact (of_decide_eq_true this) hd

/-! ### The value -/

theorem mantissaLoop_digits {w : List Byte} {ds : List Nat} (h : Decimals w ds) (rest : List Byte) (m : Mantissa)
    (hm : m.digits + ds.length ≤ 18) :
    mantissaLoop m (w ++ rest) = mantissaLoop ⟨ds.foldl (fun n d => n * 10 + d) m.mantissa,
      m.scale.map (· * 10 ^ ds.length), m.digits + ds.length, m.shift⟩ rest := by
  induction h generalizing m with
  | nil => cases m with | mk a b c d => cases b <;> simp
  | @cons b d w ds h hd hw ih =>
    rw [List.length_cons] at hm
    rw [List.cons_append, mantissaLoop, decimalDigit_digit h hd]
    dsimp only
    have e : m.digit d = ⟨m.mantissa * 10 + d, m.scale.map (· * 10), m.digits + 1, m.shift⟩ := by
      unfold Mantissa.digit
      rw [if_pos (by unfold maxMantissaDigits; omega)]
    rw [e, ih _ (by show m.digits + 1 + ds.length ≤ 18; omega), List.foldl_cons, List.length_cons]
    congr 2
    · cases m.scale with
      | none => rfl
      | some s =>
        simp only [Option.map_some]
        congr 1
        rw [Nat.pow_succ, Nat.mul_assoc, Nat.mul_comm 10]
    · show m.digits + 1 + ds.length = _; omega

theorem exponentLoop_digits {w : List Byte} {ds : List Nat} (h : Decimals w ds) (e : Nat) :
    exponentLoop e w = some (ds.foldl (fun n d => n * 10 + d) e) := by
  induction h generalizing e with
  | nil => rfl
  | @cons b d w ds h hd hw ih =>
    rw [exponentLoop, decimalDigit_digit h hd]
    exact ih _

theorem marker_facts {c : Char} {k : Option FloatClass} (h : (c, k) ∈ markers) :
    decimalDigit (code c) = none ∧ code c ≠ code '.' ∧ exponentMarker (code c) = some k := by
  have : markers.all (fun x => decide (decimalDigit (code x.1) = none ∧ code x.1 ≠ code '.' ∧
    exponentMarker (code x.1) = some x.2)) = true := by decide +kernel
  exact of_decide_eq_true (List.all_eq_true.1 this _ h)

theorem digit_not_sign {b : Byte} {d : Nat} (h : IsDigit b d) : b ≠ code '-' ∧ b ≠ code '+' ∧ b ≠ code '.' := by
  have := digit_all (fun b _ => b != code '-' && b != code '+' && b != code '.') (by decide +kernel) h
  simpa [and_assoc] using this

theorem exponentPart_sign {s w : List Byte} {neg : Bool} {ds : List Nat} (hs : Sign s neg) (hw : Decimals w ds)
    (hne : w ≠ []) : exponentPart (s ++ w) = some (neg, number 10 ds) := by
  cases hs with
  | none =>
    cases hw with
    | nil => exact absurd rfl hne
    | @cons b d w ds h hd hw =>
      obtain ⟨h1, h2, -⟩ := digit_not_sign h
      rw [List.nil_append, exponentPart, if_neg h1, if_neg h2, exponentLoop_digits (.cons h hd hw)]
      rfl
  | plus =>
    show exponentPart (code '+' :: w) = _
    rw [exponentPart, if_neg (by decide), if_pos rfl, exponentLoop_digits hw]; rfl
  | minus =>
    show exponentPart (code '-' :: w) = _
    rw [exponentPart, if_pos rfl, exponentLoop_digits hw]; rfl

/-- The end of a literal. -/
theorem unsigned_end {e : List Byte} {en : Bool} {ev : Nat} {k : Option FloatClass} (h : Exponent e en ev k)
    (neg : Bool) (l : List Byte) (m : Mantissa) (hm : mantissaLoop ⟨0, none, 0, 0⟩ l = mantissaLoop m e)
    (hs : m.shift = 0) : unsignedFloat neg l = some ⟨neg, m.mantissa, m.scale.getD 1, en, ev, k⟩ := by
  unfold unsignedFloat
  rw [hm]
  cases h with
  | none => simp only [mantissaLoop, hs]
  | @some c k s w n ds hc hsg hw hne =>
    obtain ⟨f1, f2, f3⟩ := marker_facts hc
    have : mantissaLoop m (code c :: s ++ w) = some (m, some (k, s ++ w)) := by
      rw [List.cons_append, mantissaLoop, f1]
      dsimp only
      rw [if_neg f2, f3]
    rw [this]
    dsimp only
    rw [exponentPart_sign hsg hw hne]
    simp only [hs, Nat.add_zero]

theorem decimals_length {w : List Byte} {ds : List Nat} (h : Decimals w ds) : w = [] ↔ ds = [] := by
  cases h <;> simp

theorem unsignedFloat_text {i f e : List Byte} {en : Bool} {ev : Nat} {k : Option FloatClass} {before after : List Nat}
    (hi : Decimals i before) (hf : Fraction f after) (he : Exponent e en ev k) (hl : before.length + after.length ≤ 18)
    (neg : Bool) :
    unsignedFloat neg (i ++ f ++ e) = some ⟨neg, number 10 (before ++ after), 10 ^ after.length, en, ev, k⟩ := by
  have h1 := mantissaLoop_digits hi (f ++ e) ⟨0, none, 0, 0⟩ (by show 0 + before.length ≤ 18; omega)
  cases hf with
  | none =>
    rw [List.append_nil, List.append_nil]
    have := unsigned_end he neg (i ++ e) _ h1 rfl
    simpa [number] using this
  | @some w ds hw =>
    have h2 : mantissaLoop ⟨before.foldl (fun n d => n * 10 + d) 0, none, 0 + before.length, 0⟩ (code '.' :: (w ++ e)) =
        mantissaLoop ⟨before.foldl (fun n d => n * 10 + d) 0, some 1, 0 + before.length, 0⟩ (w ++ e) := by
      rw [mantissaLoop, show decimalDigit (code '.') = none by decide]
      rfl
    have h3 := mantissaLoop_digits hw e ⟨before.foldl (fun n d => n * 10 + d) 0, some 1, 0 + before.length, 0⟩
      (by show 0 + before.length + after.length ≤ 18; omega)
    have := unsigned_end he neg (i ++ (code '.' :: w) ++ e) _
      ((by rw [List.append_assoc]; exact h1.trans (h2.trans h3)) : mantissaLoop ⟨0, none, 0, 0⟩ _ = _) rfl
    rw [this]
    simp [number, List.foldl_append]

theorem first_not_sign {i f e : List Byte} {before after : List Nat} (hi : Decimals i before) (hf : Fraction f after)
    (hne : before ++ after ≠ []) :
    ∃ b l, i ++ f ++ e = b :: l ∧ b ≠ code '-' ∧ b ≠ code '+' := by
  cases hi with
  | @cons b d w ds h hd hw =>
    exact ⟨b, _, rfl, (digit_not_sign h).1, (digit_not_sign h).2.1⟩
  | nil =>
    cases hf with
    | none => exact absurd rfl hne
    | some hw => exact ⟨_, _, rfl, by decide, by decide⟩

/-! ### The token -/

theorem run_decimals {st : St} (hst : ∀ b d, IsDigit b d → d < 10 → next st b = some st) (q : quiet st = true)
    {w : List Byte} {ds : List Nat} (h : Decimals w ds) : Run st w st := by
  induction h with
  | nil => exact .nil
  | cons h hd hw ih => exact .cons (hst _ _ h hd) q ih

theorem run_first_decimals {s0 st : St} (h0 : ∀ b d, IsDigit b d → d < 10 → next s0 b = some st)
    (hst : ∀ b d, IsDigit b d → d < 10 → next st b = some st) (q : quiet st = true)
    {w : List Byte} {ds : List Nat} (h : Decimals w ds) (hne : w ≠ []) : Run s0 w st := by
  cases h with
  | nil => exact absurd rfl hne
  | cons h hd hw => exact .cons (h0 _ _ h hd) q (run_decimals hst q hw)

/-- The digits after the point lead from one state to the other and back. -/
theorem run_fraction {w : List Byte} {ds : List Nat} (h : Decimals w ds) :
    (∃ st, Run .decimalDot w st ∧ (st = .decimalDot ∨ st = .decimalDotDecimal)) ∧
    (∃ st, Run .decimalDotDecimal w st ∧ (st = .decimalDot ∨ st = .decimalDotDecimal)) := by
  have h1 := next_digit 10 .decimalDot .decimalDotDecimal (by decide +kernel)
  have h2 := next_digit 10 .decimalDotDecimal .decimalDot (by decide +kernel)
  induction h with
  | nil => exact ⟨⟨_, .nil, .inl rfl⟩, ⟨_, .nil, .inr rfl⟩⟩
  | cons h hd hw ih =>
    obtain ⟨⟨s, r, hs⟩, ⟨t, r', ht⟩⟩ := ih
    exact ⟨⟨t, .cons (h1 _ _ h hd) (by decide) r', ht⟩, ⟨s, .cons (h2 _ _ h hd) (by decide) r, hs⟩⟩

theorem marker_next {c : Char} {k : Option FloatClass} (h : (c, k) ∈ markers) :
    next .decimalDot (code c) = some .fpE ∧ next .decimalDotDecimal (code c) = some .fpE ∧
    next .signedDecimal (code c) = some .fpE ∧ next .decimal (code c) = some .decimalE := by
  have : markers.all (fun x => decide (next .decimalDot (code x.1) = some .fpE ∧
    next .decimalDotDecimal (code x.1) = some .fpE ∧ next .signedDecimal (code x.1) = some .fpE ∧
    next .decimal (code x.1) = some .decimalE)) = true := by decide +kernel
  exact of_decide_eq_true (List.all_eq_true.1 this _ h)

/-- An exponent after the state `st`. -/
theorem run_exponent {st e1 e2 e3 : St} (hq : quiet e1 = true ∧ quiet e2 = true ∧ quiet e3 = true)
    (hs : next e1 (code '-') = some e2 ∧ next e1 (code '+') = some e2)
    (hd : (∀ b d, IsDigit b d → d < 10 → next e1 b = some e3) ∧ (∀ b d, IsDigit b d → d < 10 → next e2 b = some e3) ∧
      (∀ b d, IsDigit b d → d < 10 → next e3 b = some e3))
    {c : Char} (hc : next st (code c) = some e1) {s w : List Byte} {neg : Bool} {ds : List Nat} (hsg : Sign s neg)
    (hw : Decimals w ds) (hne : w ≠ []) : Run st (code c :: s ++ w) e3 := by
  refine .cons hc hq.1 ?_
  show Run e1 (s ++ w) e3
  cases hsg with
  | none => exact run_first_decimals hd.1 hd.2.2 hq.2.2 hw hne
  | plus => exact .cons hs.2 hq.2.1 (run_first_decimals hd.2.1 hd.2.2 hq.2.2 hw hne)
  | minus => exact .cons hs.1 hq.2.1 (run_first_decimals hd.2.1 hd.2.2 hq.2.2 hw hne)

theorem stops_float (st : St) (h : st = .decimalDot ∨ st = .decimalDotDecimal ∨ st = .fpExp ∨ st = .decimalExp)
    {rest : List Byte} (hr : Delimited rest) : Stops st rest := by
  intro c hc
  have h1 := hr c hc
  have : ∀ b : Byte, isName b = false → b ≠ code '.' → next .decimalDot b = none ∧ next .decimalDotDecimal b = none ∧
    next .fpExp b = none ∧ next .decimalExp b = none := by decide +kernel
  have h2 : isName c = false := by
    rw [Bool.eq_false_iff]; intro hn; exact h1.1 ((mem_nameChars c).2 hn)
  obtain ⟨a1, a2, a3, a4⟩ := this c h2 h1.2.1
  rcases h with rfl | rfl | rfl | rfl
  · exact a1
  · exact a2
  · exact a3
  · exact a4

theorem fp_exponent {st : St} (h : ∀ c k, (c, k) ∈ markers → next st (code c) = some .fpE) {e : List Byte} {en : Bool}
    {ev : Nat} {k : Option FloatClass} (he : Exponent e en ev k) :
    ∃ st', Run st e st' ∧ (st' = .fpExp ∨ (e = [] ∧ st' = st)) := by
  cases he with
  | none => exact ⟨st, .nil, .inr ⟨rfl, rfl⟩⟩
  | some hc hs hw hne =>
    exact ⟨.fpExp, run_exponent (e1 := .fpE) (e2 := .fpESign) (by decide) (by decide +kernel)
      ⟨next_digit 10 _ _ (by decide +kernel), next_digit 10 _ _ (by decide +kernel), next_digit 10 _ _ (by decide +kernel)⟩
      (h _ _ hc) hs hw hne, .inl rfl⟩

/-- The states in which a float can end. -/
theorem run_float {s i f e : List Byte} {v : Floating} {before after : List Nat}
    (h : FloatText s i f e v before after) :
    ∃ st, Run .start (s ++ (i ++ f ++ e)) st ∧
      (st = .decimalDot ∨ st = .decimalDotDecimal ∨ st = .fpExp ∨ st = .decimalExp) := by
  obtain ⟨hs, hi, hf, he, -, -, hd, hfl⟩ := h
  generalize v.exponentNegative = en at he
  generalize v.exponent = ev at he
  generalize v.cls = k at he
  have fpDot := @fp_exponent .decimalDot (fun c k h => (marker_next h).1)
  have fpDotDecimal := @fp_exponent .decimalDotDecimal (fun c k h => (marker_next h).2.1)
  have fpSigned := @fp_exponent .signedDecimal (fun c k h => (marker_next h).2.2.1)
  -- from the point on
  have dots : ∀ {w : List Byte} {ds : List Nat}, Decimals w ds → ∃ st, Run .decimalDot (w ++ e) st ∧
      (st = .decimalDot ∨ st = .decimalDotDecimal ∨ st = .fpExp ∨ st = .decimalExp) := by
    intro w ds hw
    obtain ⟨⟨t, r, ht⟩, -⟩ := run_fraction hw
    rcases ht with rfl | rfl
    · obtain ⟨u, r', hu⟩ := fpDot he
      exact ⟨u, r.append r', by rcases hu with rfl | ⟨-, rfl⟩ <;> simp⟩
    · obtain ⟨u, r', hu⟩ := fpDotDecimal he
      exact ⟨u, r.append r', by rcases hu with rfl | ⟨-, rfl⟩ <;> simp⟩
  have signed : ∀ s0, (∀ b d, IsDigit b d → d < 10 → next s0 b = some .signedDecimal) →
      next s0 (code '.') = some .decimalDot → ∃ st, Run s0 (i ++ f ++ e) st ∧
      (st = .decimalDot ∨ st = .decimalDotDecimal ∨ st = .fpExp ∨ st = .decimalExp) := by
    intro s0 h1 h2
    cases hf with
    | none =>
      have hi' : i ≠ [] := by
        intro hn; rw [decimals_length hi] at hn; exact hd (by rw [hn]; rfl)
      rw [List.append_nil]
      obtain ⟨u, r', hu⟩ := fpSigned he
      have r := run_first_decimals h1 (next_digit 10 .signedDecimal .signedDecimal (by decide +kernel)) (by decide) hi hi'
      refine ⟨u, r.append r', ?_⟩
      rcases hu with rfl | ⟨h, -⟩
      · simp
      · rcases hfl with hfl | hfl
        · exact absurd rfl hfl
        · exact absurd h hfl
    | @some w ds hw =>
      obtain ⟨t, r, ht⟩ := dots hw
      rw [List.append_assoc]
      by_cases hi' : i = []
      · subst hi'
        exact ⟨t, .cons h2 (by decide) r, ht⟩
      · have r0 := run_first_decimals h1 (next_digit 10 .signedDecimal .signedDecimal (by decide +kernel)) (by decide) hi hi'
        exact ⟨t, r0.append (.cons (st' := .decimalDot) (by decide +kernel) (by decide) r), ht⟩
  cases hs' : s with
  | nil =>
    rw [List.nil_append]
    cases hf with
    | none =>
      have hi' : i ≠ [] := by
        intro hn; rw [decimals_length hi] at hn; exact hd (by rw [hn]; rfl)
      rw [List.append_nil]
      have r := run_first_decimals (next_digit 10 .start .decimal (by decide +kernel))
        (next_digit 10 .decimal .decimal (by decide +kernel)) (by decide) hi hi'
      cases he with
      | none => rcases hfl with h | h <;> exact absurd rfl h
      | some hc hsg hw hne =>
        refine ⟨.decimalExp, r.append (run_exponent (e1 := .decimalE) (e2 := .decimalESign) (by decide) (by decide +kernel)
          ⟨next_digit 10 _ _ (by decide +kernel), next_digit 10 _ _ (by decide +kernel),
            next_digit 10 _ _ (by decide +kernel)⟩ (marker_next hc).2.2.2 hsg hw hne), by simp⟩
    | @some w ds hw =>
      rw [List.append_assoc]
      by_cases hi' : i = []
      · subst hi'
        have hb : before = [] := (decimals_length hi).1 rfl
        subst hb
        cases hw with
        | nil => exact absurd rfl hd
        | @cons b d w ds hb hbd hw =>
          have h1 := next_digit 10 .dot .decimalDotDecimal (by decide +kernel) b d hb hbd
          obtain ⟨-, ⟨t, r, ht⟩⟩ := run_fraction hw
          have r1 : Run .start (code '.' :: b :: w) t :=
            .cons (st' := .dot) (by decide +kernel) (by decide) (.cons h1 (by decide) r)
          rcases ht with rfl | rfl
          · obtain ⟨u, r', hu⟩ := fpDot he
            exact ⟨u, r1.append r', by rcases hu with rfl | ⟨-, rfl⟩ <;> simp⟩
          · obtain ⟨u, r', hu⟩ := fpDotDecimal he
            exact ⟨u, r1.append r', by rcases hu with rfl | ⟨-, rfl⟩ <;> simp⟩
      · obtain ⟨t, r, ht⟩ := dots hw
        have r0 := run_first_decimals (next_digit 10 .start .decimal (by decide +kernel))
          (next_digit 10 .decimal .decimal (by decide +kernel)) (by decide) hi hi'
        exact ⟨t, r0.append (.cons (st' := .decimalDot) (by decide +kernel) (by decide) r), ht⟩
  | cons b s' =>
    have hb : next .start b = some .minus ∧ b = code '-' ∨ next .start b = some .plus ∧ b = code '+' := by
      subst hs'
      generalize v.negative = n at hs
      cases hs with
      | plus => exact .inr ⟨by decide +kernel, rfl⟩
      | minus => exact .inl ⟨by decide +kernel, rfl⟩
    have hs0 : s' = [] := by
      subst hs'
      generalize v.negative = n at hs
      cases hs <;> rfl
    subst hs0
    rcases hb with ⟨hb, -⟩ | ⟨hb, -⟩
    · obtain ⟨t, r, ht⟩ := signed .minus (next_digit 10 _ _ (by decide +kernel)) (by decide +kernel)
      exact ⟨t, .cons hb (by decide) r, ht⟩
    · obtain ⟨t, r, ht⟩ := signed .plus (next_digit 10 _ _ (by decide +kernel)) (by decide +kernel)
      exact ⟨t, .cons hb (by decide) r, ht⟩

/-- **C121** A floating point literal is one token, and its value is the number that is written: the sign, the digits
    before and after the point as one integer, a power of ten for each digit after the point, the exponent and the class.
    Partial: there are at most 18 digits before the exponent, and no underscores. -/
theorem float_literals_partial (pre rest : List Byte) (lx : Lexer) (hp : lx.pos = pre.length) (s i f e : List Byte)
    (v : Floating) (before after : List Nat) (h : FloatText s i f e v before after)
    (hl : before.length + after.length ≤ 18) (hr : Delimited rest) :
    let w := s ++ (i ++ f ++ e)
    Reads (pre ++ w ++ rest) lx w .float lx.quoteStart ∧ atof w = some v := by
  intro w
  constructor
  · obtain ⟨st, r, hst⟩ := run_float h
    refine reads_run hp ?_ r ?_ (stops_float st hst hr)
    · obtain ⟨b, l, hb, -⟩ := first_not_sign (e := e) h.integer h.fraction h.digits
      show s ++ (i ++ f ++ e) ≠ []; rw [hb]; simp
    · rcases hst with rfl | rfl | rfl | rfl <;> rfl
  · obtain ⟨b, l, hb, h1, h2⟩ := first_not_sign (e := e) h.integer h.fraction h.digits
    have hu := unsignedFloat_text h.integer h.fraction h.exponent hl v.negative
    have hv : v = ⟨v.negative, number 10 (before ++ after), 10 ^ after.length, v.exponentNegative, v.exponent, v.cls⟩ := by
      have h1 := h.mantissa
      have h2 := h.scale
      cases v
      simp only at h1 h2
      subst h1; subst h2; rfl
    rw [← hv] at hu
    have hs := h.sign
    show atof (s ++ (i ++ f ++ e)) = some v
    generalize hn : v.negative = n at hs hu
    cases hs with
    | none =>
      rw [List.nil_append]
      rw [hb] at hu ⊢
      rw [atof, if_neg h1, if_neg h2]; exact hu
    | plus =>
      show atof (code '+' :: (i ++ f ++ e)) = _
      rw [atof, if_neg (by decide), if_pos rfl]; exact hu
    | minus =>
      show atof (code '-' :: (i ++ f ++ e)) = _
      rw [atof, if_pos rfl]; exact hu

/-- `-12.5d+3` -/
example : FloatText (bytes "-") (bytes "12") (bytes ".5") (bytes "d+3") ⟨true, 125, 10, false, 3, some .double⟩ [1, 2] [5] :=
  ⟨.minus, .cons (.inl (by decide)) (by decide) (.cons (.inl (by decide)) (by decide) .nil),
    .some (.cons (.inl (by decide)) (by decide) .nil),
    Exponent.some (c := 'd') (k := some .double) (s := bytes "+") (w := bytes "3") (ds := [3]) (by decide) .plus
      (.cons (.inl (by decide)) (by decide) .nil) (by decide), by decide, by decide, by decide, .inl (by decide)⟩

/-- **C121** With more than 18 digits before the point and a negative exponent the value is wrong: the digits that are
    left out divide the number where they should multiply it.  `1000000000000000000e-18` is 1; the value is
    10 ^ 17 / 10 ^ 19. -/
theorem long_mantissa_violated :
    ∃ v, atof (bytes "1000000000000000000e-18") = some v ∧ v.mantissa = 10 ^ 17 ∧ v.scale = 1 ∧
      v.exponentNegative = true ∧ v.exponent = 19 ∧ v.mantissa * 10 ^ 18 ≠ 10 ^ 18 * 10 ^ v.exponent ∧
      getToken (bytes "1000000000000000000e-18") .new = .token .float ⟨0, 1, 0, 23, 1, 23⟩ ⟨23, 1, 0, 0, 0, 0, 0⟩ := by
  refine ⟨⟨false, 10 ^ 17, 1, true, 19, none⟩, by decide +kernel, rfl, rfl, rfl, rfl, by decide, by decide +kernel⟩

/-- **C121** The digits of an exponent are written in brackets in the table, so that a bracket is read as a digit:
    `1e]` is a float, and its value cannot be made. -/
theorem exponent_bracket_violated :
    getToken (bytes "1e]") .new = .token .float ⟨0, 1, 0, 3, 1, 3⟩ ⟨3, 1, 0, 0, 0, 0, 0⟩ ∧ atof (bytes "1e]") = none := by
  decide +kernel

/-- **C121** A sign and a point are a float without a digit. -/
theorem no_digits_violated :
    getToken (bytes "-.") .new = .token .float ⟨0, 1, 0, 2, 1, 2⟩ ⟨2, 1, 0, 0, 0, 0, 0⟩ := by decide +kernel

/-- **C121** Underscores between digits of the fraction are accepted only after an odd number of them: `1.5_0` is a
    float, and of `1.50_0` the token is `1.50`. -/
theorem fraction_underscore_violated :
    getToken (bytes "1.5_0") .new = .token .float ⟨0, 1, 0, 5, 1, 5⟩ ⟨5, 1, 0, 0, 0, 0, 0⟩ ∧
    getToken (bytes "1.50_0") .new = .token .float ⟨0, 1, 0, 4, 1, 4⟩ ⟨4, 1, 0, 0, 0, 0, 0⟩ := by decide +kernel

end Verif.Reader
