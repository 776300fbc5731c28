/-
C55: conversion between integers and strings.
-/
import Verif.IntString.Lemmas

namespace Verif.IntString

/-- C55: `integer-to-string` writes the sign, the fill characters if the rest is shorter than
    `size:`, and the digits of the number in the base, without leading zeros; it ends for every
    integer, also the smallest. If `lowercase?:` is true, the fill character is made lowercase too.
    -/
theorem integer_to_string_spec (n : Int) (hn : fits n = true) (base : Nat) (hb : 2 ≤ base)
    (hb' : base ≤ 36) (size : Int) (fill : Char) (lowercase : Bool) :
    ∃ ds : List Nat, numeral base ds = n.natAbs ∧ (∀ d ∈ ds, d < base) ∧
      (ds = [0] ∨ ∃ d ds', ds = d :: ds' ∧ d ≠ 0) ∧
      integerToString n base size fill lowercase = some (.ok
        ((if n < 0 then ['-'] else []) ++
          List.replicate (size - ds.length - if n < 0 then 1 else 0).toNat
            (if lowercase then asLowercase fill else fill) ++
          ds.map (glyph lowercase))) := by
  obtain ⟨ds, h1, h2, h3, h4⟩ := digits_spec hb hb' (n := n) (by rw [fits_iff] at hn; omega)
  refine ⟨ds, h1, h2, h3, ?_⟩
  have hg : (ds.map (glyph false)).map (fun c => if lowercase then asLowercase c else c) =
      ds.map (glyph lowercase) := by
    rw [List.map_map]
    apply List.map_congr_left
    intro d hd
    have hd36 : d < 36 := by have := h2 d hd; omega
    cases lowercase
    · rfl
    · simp only [Function.comp_apply, if_true, ← glyph_upper hd36, glyph_lower hd36]
  have hm : asLowercase '-' = '-' := by decide
  simp only [integerToString, decide_eq_true_eq]
  rw [if_neg (by omega), h4]
  simp only [Option.map_some, List.length_reverse, List.length_map]
  congr 2
  by_cases h : n < 0
  · simp only [if_pos h, List.reverse_append, List.reverse_cons, List.reverse_nil, List.nil_append,
      List.reverse_replicate, List.reverse_reverse, List.map_append, List.map_cons, List.map_nil,
      hg, hm, ite_self, List.map_replicate, List.append_assoc]
  · simp only [if_neg h, List.reverse_append, List.nil_append, List.reverse_replicate,
      List.reverse_reverse, List.map_append, hg, List.map_replicate]

/-- C55: other bases are refused. -/
theorem integer_to_string_base (n base size : Int) (fill : Char) (lowercase : Bool)
    (hb : ¬ (2 ≤ base ∧ base ≤ 36)) :
    integerToString n base size fill lowercase = some .assertion := by
  simp [integerToString, hb]

example : fits (-(2 ^ 61)) = true ∧
    integerToString (-(2 ^ 61)) 16 0 '0' false = some (.ok "-2000000000000000".toList) ∧
    integerToString 2026 36 6 ' ' true = some (.ok "   1ka".toList) ∧
    integerToString 0 2 0 '0' false = some (.ok "0".toList) := by decide +kernel

/-- A text can be taken apart in one way only. -/
theorem parts_unique (base : Nat) (text b1 s1 d1 r1 b2 s2 d2 r2 : List Char)
    (h1 : Parts base text b1 s1 d1 r1) (h2 : Parts base text b2 s2 d2 r2) :
    b1 = b2 ∧ s1 = s2 ∧ d1 = d2 ∧ r1 = r2 := by
  have key : ∀ (P : Char → Prop) (a1 a2 c1 c2 : List Char), (∀ c ∈ a1, P c) → (∀ c ∈ a2, P c) →
      (∀ c cs, c1 = c :: cs → ¬ P c) → (∀ c cs, c2 = c :: cs → ¬ P c) → a1 ++ c1 = a2 ++ c2 →
      a1 = a2 ∧ c1 = c2 := by
    intro P a1
    induction a1 with
    | nil =>
      intro a2 c1 c2 _ h2 h3 h4 h
      cases a2 with
      | nil => exact ⟨rfl, h⟩
      | cons x a2 => exact absurd (h2 x (by simp)) (h3 x _ h)
    | cons x a1 ih =>
      intro a2 c1 c2 h1 h2 h3 h4 h
      cases a2 with
      | nil => exact absurd (h1 x (by simp)) (h4 x _ h.symm)
      | cons y a2 =>
        simp only [List.cons_append, List.cons.injEq] at h
        obtain ⟨rfl, h⟩ := h
        obtain ⟨rfl, rfl⟩ := ih a2 c1 c2 (fun c hc => h1 c (by simp [hc]))
          (fun c hc => h2 c (by simp [hc])) h3 h4 h
        exact ⟨rfl, rfl⟩
  have e := h1.text_eq.symm.trans h2.text_eq
  simp only [List.append_assoc] at e
  obtain ⟨rfl, e2⟩ := key IsBlank b1 b2 _ _ h1.blanks_blank h2.blanks_blank
    (by simpa using h1.no_more_blanks) (by simpa using h2.no_more_blanks) e
  have hs : s1 = s2 ∧ d1 ++ r1 = d2 ++ r2 := by
    rcases h1.sign_eq with rfl | rfl | rfl <;> rcases h2.sign_eq with rfl | rfl | rfl <;>
      simp only [List.nil_append, List.cons_append, List.cons.injEq, Char.reduceEq, false_and] at e2
    · exact ⟨rfl, e2⟩
    · exact absurd rfl (h1.no_sign rfl _ _ e2).1
    · exact absurd rfl (h1.no_sign rfl _ _ e2).2
    · exact absurd rfl (h2.no_sign rfl _ _ e2.symm).1
    · exact ⟨rfl, e2.2⟩
    · exact absurd rfl (h2.no_sign rfl _ _ e2.symm).2
    · exact ⟨rfl, e2.2⟩
  obtain ⟨rfl, e3⟩ := hs
  obtain ⟨rfl, rfl⟩ := key (IsDigit base) d1 d2 _ _ h1.digits_digits h2.digits_digits
    h1.no_more_digits h2.no_more_digits e3
  exact ⟨rfl, rfl, rfl, rfl⟩

/-- C55: `string-to-integer` skips blanks, and returns the number that the sign, if any, and the
    digits that follow stand for, with the key after them. If there are no digits it returns the
    default with the start key, or signals an error if there is no default. If the number is not an
    `<integer>` it signals overflow. -/
theorem string_to_integer_spec (string : List Char) (base start stop : Nat) (hb : 2 ≤ base)
    (hb' : base ≤ 36) (hstart : start = 0 ∨ start < string.length) (hle : start ≤ stop)
    (hstop : stop ≤ string.length) (endKey : Option Int)
    (hend : endKey = some (stop : Int) ∨ (endKey = none ∧ stop = string.length))
    (default : Option Int) :
    ∃ blanks sign digits rest,
      Parts base ((string.take stop).drop start) blanks sign digits rest ∧
      stringToInteger string base start endKey default =
        if digits = [] then
          match default with
          | none => .noInteger
          | some d => .ok (d, start)
        else if fits (meaning base sign digits) then
          .ok (meaning base sign digits, start + blanks.length + sign.length + digits.length)
        else .overflow := by
  obtain ⟨blanks, r1, h1, h2, h3, h4⟩ := skipBlanks_spec ((string.take stop).drop start) start
  obtain ⟨sign, r2, h5, h6, h7, h8⟩ := readSign_spec r1 (start + blanks.length)
  have hs : (if sign = ['-'] then (-1 : Int) else 1) = 1 ∨
      (if sign = ['-'] then (-1 : Int) else 1) = -1 := by
    by_cases h : sign = ['-']
    · rw [if_pos h]; exact .inr rfl
    · rw [if_neg h]; exact .inl rfl
  have hf0 : fits ((if sign = ['-'] then (-1 : Int) else 1) * (0 : Nat)) = true := by
    rw [fits_iff]; simp
  obtain ⟨digits, rest, h9, h10, h11, h12⟩ := readDigits_spec (base := base) hb hs r2
    (start + blanks.length + sign.length) false 0 hf0
  refine ⟨blanks, sign, digits, rest, ⟨?_, h2, ?_, h6, ?_, h10, h11⟩, ?_⟩
  · rw [h1, h5, h9]; simp
  · intro c cs he; apply h3 c cs; rw [h5, h9]; simpa using he
  · intro hs c cs he; exact h7 hs c cs (by rw [h9]; exact he)
  · have hstop' : (endKey.getD string.length).toNat = stop := by
      rcases hend with rfl | ⟨rfl, rfl⟩ <;> simp
    have hany : (endKey.any fun stop => !decide (stop ≥ (start : Int) ∧ stop ≤ string.length)) =
        false := by
      rcases hend with rfl | ⟨rfl, rfl⟩
      · simp; omega
      · rfl
    simp only [stringToInteger]
    rw [if_neg (by omega), hany, if_neg (by simp), if_neg (by omega), hstop']
    simp only [Int.toNat_natCast, h4, h8]
    have h12' : readDigits (↑base) (if sign = ['-'] then -1 else 1) r2
        (start + blanks.length + sign.length) false 0 =
        if fits (meaning base sign digits) then some (!digits.isEmpty, meaning base sign digits,
          start + blanks.length + sign.length + digits.length) else none := by
      simpa [meaning] using h12
    rw [h12']
    by_cases hd : digits = []
    · subst hd
      have : fits (meaning base sign []) = true := by rw [fits_iff]; simp [meaning, numeral]
      rw [if_pos rfl, if_pos this]
      cases default <;> simp
    · rw [if_neg hd]
      have he : digits.isEmpty = false := by simpa using hd
      by_cases hf : fits (meaning base sign digits) = true
      · simp [hf, he]
      · simp only [hf, if_false, Bool.false_eq_true]

example : stringToInteger "ab \t-0fFz".toList 16 2 none none = .ok (-255, 8) ∧
    stringToInteger "12345".toList 10 1 (some 3) none = .ok (23, 3) ∧
    stringToInteger " +".toList 10 0 none (some 7) = .ok (7, 0) ∧
    stringToInteger " +".toList 10 0 none none = .noInteger ∧
    stringToInteger "2305843009213693952".toList 10 0 none none = .overflow ∧
    stringToInteger "-2305843009213693952".toList 10 0 none none =
      .ok (-2305843009213693952, 20) := by decide +kernel

/-- C55: reading what was written gives back the integer, for every integer and base, and for
    every size if it is filled with zeros. -/
theorem integer_string_roundtrip (n : Int) (hn : fits n = true) (base : Nat) (hb : 2 ≤ base)
    (hb' : base ≤ 36) (size : Int) (lowercase : Bool) :
    ∃ s, integerToString n base size '0' lowercase = some (.ok s) ∧
      stringToInteger s base 0 none none = .ok (n, s.length) := by
  obtain ⟨ds, h1, h2, h3, h4⟩ := integer_to_string_spec n hn base hb hb' size '0' lowercase
  refine ⟨_, h4, ?_⟩
  have hz : (if lowercase = true then asLowercase '0' else '0') = glyph lowercase 0 := by
    cases lowercase <;> decide
  generalize (size - ds.length - if n < 0 then 1 else 0).toNat = k
  rw [hz]
  have hmap : List.replicate k (glyph lowercase 0) ++ ds.map (glyph lowercase) =
      (List.replicate k 0 ++ ds).map (glyph lowercase) := by simp
  rw [List.append_assoc, hmap]
  generalize hE : List.replicate k 0 ++ ds = E
  have hE1 : ∀ d ∈ E, d < base := by
    intro d hd
    rw [← hE] at hd
    rcases List.mem_append.1 hd with h | h
    · rw [List.eq_of_mem_replicate h]; omega
    · exact h2 d h
  have hE2 : numeral base E = n.natAbs := by
    rw [← hE, ← h1]
    clear hE hmap
    induction k with
    | zero => simp
    | succ k ih => simp [List.replicate_succ, numeral, ih]
  have hE3 : E ≠ [] := by
    rw [← hE]
    rcases h3 with rfl | ⟨d, ds', rfl, _⟩ <;> simp
  have hdig : ∀ c ∈ E.map (glyph lowercase), IsDigit base c := by
    intro c hc
    obtain ⟨d, hd, rfl⟩ := List.mem_map.1 hc
    exact ⟨d, digitOf_glyph (by have := hE1 d hd; omega) _, hE1 d hd⟩
  have hhead : ∀ c cs, E.map (glyph lowercase) = c :: cs → ¬ IsBlank c ∧ c ≠ '+' ∧ c ≠ '-' := by
    intro c cs he
    have : c ∈ E.map (glyph lowercase) := by rw [he]; simp
    obtain ⟨d, hd, rfl⟩ := List.mem_map.1 this
    exact glyph_blank (by have := hE1 d hd; omega) _
  have hback : (E.map (glyph lowercase)).map (fun c => (digitOf c).getD 0) = E := by
    rw [List.map_map]
    conv_rhs => rw [← List.map_id E]
    apply List.map_congr_left
    intro d hd
    simp [digitOf_glyph (d := d) (by have := hE1 d hd; omega) lowercase]
  have hP : Parts base ((if n < 0 then ['-'] else []) ++ E.map (glyph lowercase)) []
      (if n < 0 then ['-'] else []) (E.map (glyph lowercase)) [] := by
    refine ⟨by simp, by simp, ?_, ?_, ?_, hdig, by simp⟩
    · intro c cs he
      by_cases h : n < 0
      · simp only [if_pos h, List.cons_append, List.cons.injEq] at he
        rw [← he.1, ← whitespace_iff]; decide
      · simp only [if_neg h, List.nil_append, List.append_nil] at he
        exact (hhead c cs he).1
    · by_cases h : n < 0 <;> simp [h]
    · intro _ c cs he
      exact (hhead c cs (by simpa using he)).2
  obtain ⟨b, s, d, r, hp, hr⟩ := string_to_integer_spec
    ((if n < 0 then ['-'] else []) ++ E.map (glyph lowercase)) base 0
    ((if n < 0 then ['-'] else []) ++ E.map (glyph lowercase)).length hb hb' (.inl rfl) (by omega)
    le_rfl none (.inr ⟨rfl, rfl⟩) none
  rw [List.take_length, List.drop_zero] at hp
  obtain ⟨rfl, rfl, rfl, rfl⟩ := parts_unique _ _ _ _ _ _ _ _ _ _ hp hP
  have hm : meaning base (if n < 0 then ['-'] else []) (E.map (glyph lowercase)) = n := by
    simp only [meaning, hback, hE2]
    by_cases h : n < 0
    · simp only [if_pos h, if_true]; omega
    · simp only [if_neg h]; rw [if_neg (by simp)]; omega
  have hne : E.map (glyph lowercase) ≠ [] := by simpa using hE3
  rw [if_neg hne, hm, hn] at hr
  simp only [if_true] at hr
  rw [Nat.cast_zero] at hr
  rw [hr]
  simp

/-- C55 fails for an empty region at the end of the string: though there is a default, an error is
    signalled, which says that 2 is out of the range from 0 to 2 (`format.dylan:316-318`). -/
theorem start_at_end_violated :
    stringToInteger "12".toList 10 2 none (some 0) = .assertion ∧
      stringToInteger [] 10 0 none (some 0) = .ok (0, 0) := by decide +kernel

/-- C55: the fill character is not always the one that is asked for. -/
theorem fill_lowercased_violated :
    integerToString 10 16 3 'X' true = some (.ok "xxa".toList) := by decide +kernel

end Verif.IntString
