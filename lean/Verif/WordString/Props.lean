import Verif.WordString.Lemmas

/-!
# C142: machine words written and read
-/

namespace Verif.WordString

open Verif.IntString

/-- **C142.**  A word is written as the prefix and sixteen digits. -/
theorem word_to_string_spec (w : BitVec 64) (pre : Option (List Char)) :
    ∃ ds : List Nat, ds.length = 16 ∧ (∀ d ∈ ds, d < 16) ∧ numeral 16 ds = w.toNat ∧
      wordToString w pre = some (pre.getD [] ++ ds.map (glyph false)) := by
  obtain ⟨h, h1, h2, h3, h4⟩ := half (n := w.toNat / 2 ^ 32) (by have := w.isLt; omega)
  obtain ⟨l, l1, l2, l3, l4⟩ := half (n := w.toNat % 2 ^ 32) (by omega)
  refine ⟨h ++ l, by simp [h1, l1], ?_, ?_, ?_⟩
  · intro d hd
    rcases List.mem_append.1 hd with hd | hd
    · exact h2 d hd
    · exact l2 d hd
  · rw [numeral_cat, h3, l3, l1]
    omega
  · have hl := low_nat w
    have hh := high_nat w
    unfold wordToString
    simp only
    rw [hh, hl, h4, l4]
    simp only [List.map_append, List.append_assoc]

example : wordToString 0xfee1dead (some "#x".toList) = some "#x00000000FEE1DEAD".toList := by decide +kernel

/-- A text can be taken apart in one way only. -/
theorem parts_unique {text b1 p1 d1 r1 b2 p2 d2 r2 : List Char} (h1 : Parts text b1 p1 d1 r1)
    (h2 : Parts text b2 p2 d2 r2) : b1 = b2 ∧ p1 = p2 ∧ d1 = d2 ∧ r1 = r2 := by
  have e : b1 ++ (p1 ++ d1 ++ r1) = b2 ++ (p2 ++ d2 ++ r2) := by
    have := h1.text_eq.symm.trans h2.text_eq
    simpa [List.append_assoc] using this
  obtain ⟨rfl, e⟩ := span_unique IsBlank b1 b2 _ _ h1.blanks_blank h2.blanks_blank h1.no_more_blanks h2.no_more_blanks e
  have key : ∀ {p q d r : List Char}, Parts text b1 p d r → (q = ['#', 'x'] ∨ q = ['0', 'x']) → p = [] →
      ∀ s, s ≠ [] → d ++ r ≠ q ++ s := by
    intro p q d r h hq hp s hs he
    obtain ⟨c, cs, rfl⟩ := List.exists_cons_of_ne_nil hs
    rcases hq with rfl | rfl
    · exact h.no_pre hp '#' 'x' c cs he ⟨Or.inl rfl, rfl⟩
    · exact h.no_pre hp '0' 'x' c cs he ⟨Or.inr rfl, rfl⟩
  have hp : p1 = p2 := by
    rcases h1.pre_eq with hp1 | ⟨hp1, hs1⟩ <;> rcases h2.pre_eq with hp2 | ⟨hp2, hs2⟩
    · rw [hp1, hp2]
    · exact absurd (by rw [hp1] at e; simpa [List.append_assoc] using e) (key h1 hp2 hp1 _ hs2)
    · exact absurd (by rw [hp2] at e; simpa [List.append_assoc] using e.symm) (key h2 hp1 hp2 _ hs1)
    · rcases hp1 with rfl | rfl <;> rcases hp2 with rfl | rfl
      · rfl
      · simp at e
      · simp at e
      · rfl
  subst hp
  have e' : d1 ++ r1 = d2 ++ r2 := by simpa [List.append_assoc] using e
  obtain ⟨rfl, rfl⟩ := span_unique (IsDigit 16) d1 d2 r1 r2 h1.digits_digits h2.digits_digits h1.no_more_digits
    h2.no_more_digits e'
  exact ⟨rfl, rfl, rfl, rfl⟩

/-- **C142.**  What is read of a text: blanks and a prefix are skipped, and the digits give the word, from the lowest
sixteen of them.  If there is no digit the default is returned, or an error signalled; but if there is nothing at all
after the blanks, zero is returned. -/
theorem string_to_word_spec (string : List Char) (start stop : Nat) (h1 : start < string.length) (h2 : start ≤ stop)
    (h3 : stop ≤ string.length) (default : Option (BitVec 64)) :
    ∃ blanks pre digits rest, Parts ((string.take stop).drop start) blanks pre digits rest ∧
      stringToWord string start (some stop) default =
        if digits ≠ [] ∨ rest = [] then
          .ok (BitVec.ofNat 64 (meaning digits), (start + blanks.length + pre.length + digits.length : Nat))
        else match default with
          | none => .noInteger
          | some d => .ok (d, (start + blanks.length + pre.length : Nat)) := by
  obtain ⟨blanks, r1, e1, hb1, hb2, hb3⟩ := skipBlanks_spec ((string.take stop).drop start) start
  obtain ⟨pre, r2, e2, hp1, hp2, hp3⟩ := skipPrefix_spec r1 (start + blanks.length)
  obtain ⟨digits, rest, e3, hd1, hd2, hd3⟩ := readWord_spec r2 (start + blanks.length + pre.length) 0
  refine ⟨blanks, pre, digits, rest, ⟨?_, hb1, ?_, ?_, ?_, hd1, hd2⟩, ?_⟩
  · rw [e1, e2, e3]; simp
  · intro c cs he
    exact hb2 c cs (by rw [e2, e3]; simpa using he)
  · rw [e3] at hp1; exact hp1
  · intro hp a b c cs he
    exact hp2 hp a b c cs (by rw [e3]; exact he)
  · have hd3' : readWord r2 (start + blanks.length + pre.length) 0 =
        (BitVec.ofNat 64 (meaning digits), start + blanks.length + pre.length + digits.length, rest.isEmpty) := by
      have := hd3
      simpa using this
    have hs : (some (stop : Int)).any (fun s : Int => !decide (s ≥ (start : Int) ∧ s ≤ (string.length : Int))) = false := by
      simp only [Option.any_some, Bool.not_eq_false', decide_eq_true_eq]
      omega
    simp only [stringToWord]
    rw [if_neg (by omega), hs]
    simp only [Bool.false_eq_true, if_false, Option.getD_some, Int.toNat_natCast, hb3, hp3, hd3']
    have hc : (rest.isEmpty || decide (start + blanks.length + pre.length + digits.length >
        start + blanks.length + pre.length)) = true ↔ (digits ≠ [] ∨ rest = []) := by
      simp only [Bool.or_eq_true, List.isEmpty_iff, decide_eq_true_eq]
      constructor
      · rintro (h | h)
        · exact Or.inr h
        · left
          intro h0
          rw [h0] at h
          simp at h
      · rintro (h | h)
        · right
          have := List.length_pos_of_ne_nil h
          omega
        · exact Or.inl h
    by_cases hq : digits ≠ [] ∨ rest = []
    · rw [if_pos (hc.2 hq), if_pos hq]
    · rw [if_neg (fun h => hq (hc.1 h)), if_neg hq]
      cases default <;> rfl

example : stringToWord " #xfee1DEADz".toList 0 none none = .ok (0xfee1dead, 11) := by decide +kernel

/-- **C142.**  A region that is not one of the string is refused, and so is one that starts at its end. -/
theorem region_refused (string : List Char) (start : Int) (stop : Option Int) (default : Option (BitVec 64))
    (h : ¬ (0 ≤ start ∧ start < string.length ∧ ∀ e, stop = some e → start ≤ e ∧ e ≤ string.length)) :
    stringToWord string start stop default = .assertion := by
  unfold stringToWord
  split
  · rfl
  · rename_i h1
    cases stop with
    | none => exact absurd ⟨by omega, by omega, by simp⟩ h
    | some e =>
      rw [if_pos]
      simp only [Option.any_some, Bool.not_eq_true', decide_eq_false_iff_not]
      intro h2
      exact h ⟨by omega, by omega, fun e' he => by cases he; exact ⟨h2.1, h2.2⟩⟩

example : stringToWord "12".toList 2 none none = .assertion ∧ stringToWord "12".toList 1 (some 3) none = .assertion := by
  decide +kernel

/-- **C142.**  A word that is written and read again is the same, with each prefix that is read and without one, after
blanks, and with whatever follows that is not a digit. -/
theorem word_string_roundtrip (w : BitVec 64) (pre : Option (List Char))
    (hp : pre.getD [] = [] ∨ pre.getD [] = ['#', 'x'] ∨ pre.getD [] = ['0', 'x']) (text blanks rest : List Char)
    (ht : wordToString w pre = some text) (hb : ∀ c ∈ blanks, IsBlank c)
    (hr : ∀ c cs, rest = c :: cs → ¬ IsDigit 16 c) (default : Option (BitVec 64)) :
    stringToWord (blanks ++ text ++ rest) 0 none default = .ok (w, (blanks.length + text.length : Nat)) := by
  obtain ⟨ds, h1, h2, h3, h4⟩ := word_to_string_spec w pre
  rw [ht, Option.some.injEq] at h4
  have hlen : text.length = (pre.getD []).length + 16 := by rw [h4]; simp [h1]
  have hpos : 0 < (blanks ++ text ++ rest).length := by simp; omega
  obtain ⟨b, p, d, r, hparts, hres⟩ := string_to_word_spec (blanks ++ text ++ rest) 0 (blanks ++ text ++ rest).length hpos
    (by omega) (by omega) default
  have hnone : stringToWord (blanks ++ text ++ rest) 0 none default =
      stringToWord (blanks ++ text ++ rest) (0 : Nat) (some ((blanks ++ text ++ rest).length : Int)) default := by
    generalize blanks ++ text ++ rest = string
    simp [stringToWord]
  have hglyph : ∀ c ∈ ds.map (glyph false), IsDigit 16 c := by
    intro c hc
    obtain ⟨k, hk, rfl⟩ := List.mem_map.1 hc
    have := h2 k hk
    exact ⟨k, digitOf_glyph (by omega) false, this⟩
  have hmean : meaning (ds.map (glyph false)) = w.toNat := by
    unfold meaning
    rw [List.map_map, ← h3]
    congr 1
    conv_rhs => rw [← List.map_id ds]
    apply List.map_congr_left
    intro k hk
    have := h2 k hk
    simp [digitOf_glyph (show k < 36 by omega) false]
  have hne : ds.map (glyph false) ≠ [] := by
    intro h0
    have := congrArg List.length h0
    simp [h1] at this
  have hmine : Parts (blanks ++ text ++ rest) blanks (pre.getD []) (ds.map (glyph false)) rest := by
    refine ⟨by rw [h4]; simp, hb, ?_, ?_, ?_, hglyph, hr⟩
    · intro c cs he
      rcases hp with hp | hp | hp
      · rw [hp, List.nil_append] at he
        obtain ⟨x, xs, hx⟩ := List.exists_cons_of_ne_nil hne
        rw [hx, List.cons_append] at he
        have hc : c = x := (List.cons.inj he).1.symm
        have hm : x ∈ ds.map (glyph false) := by rw [hx]; simp
        obtain ⟨k, hk, hkx⟩ := List.mem_map.1 hm
        have := h2 k hk
        rw [hc, ← hkx]
        exact (glyph_blank (by omega) false).1
      · rw [hp] at he
        have hc : c = '#' := (List.cons.inj he).1.symm
        rw [hc]
        unfold IsBlank
        decide
      · rw [hp] at he
        have hc : c = '0' := (List.cons.inj he).1.symm
        rw [hc]
        unfold IsBlank
        decide
    · rcases hp with hp | hp
      · exact Or.inl hp
      · refine Or.inr ⟨hp, ?_⟩
        intro h0
        exact hne (List.append_eq_nil_iff.1 h0).1
    · intro _ a b c cs he hx
      match hds : ds.map (glyph false), he, hne with
      | [x], he, _ =>
        have := congrArg List.length hds
        simp [h1] at this
      | x :: y :: l, he, _ =>
        simp only [List.cons_append, List.cons.injEq] at he
        have hy : y ∈ ds.map (glyph false) := by rw [hds]; simp
        obtain ⟨k, hk1, hk2⟩ := hglyph y hy
        rw [he.2.1, hx.2] at hk1
        have : digitOf 'x' = some 33 := by decide
        rw [this] at hk1
        simp only [Option.some.injEq] at hk1
        omega
  have htake : ((blanks ++ text ++ rest).take (blanks ++ text ++ rest).length).drop 0 = blanks ++ text ++ rest := by
    rw [List.take_length, List.drop_zero]
  rw [htake] at hparts
  obtain ⟨rfl, rfl, rfl, rfl⟩ := parts_unique hparts hmine
  rw [hnone, hres, if_pos (Or.inl hne), hmean, hlen]
  simp only [BitVec.ofNat_toNat, BitVec.setWidth_eq, List.length_map, h1]
  congr 2
  omega

/-- The default prefix is one of them. -/
example : wordToString 5 (some ['#', 'x']) = some "#x0000000000000005".toList ∧
    stringToWord "#x0000000000000005".toList 0 none none = .ok (5, 18) := by decide +kernel

/-- **C142 is violated**: a text of blanks alone is read as zero. -/
theorem blank_violated : stringToWord [' '] 0 none none = .ok (0, 1) ∧ stringToInteger [' '] 16 0 none none = .noInteger := by
  decide +kernel

/-- **C142 is violated**: digits that do not fit in a word are dropped, where `string-to-integer` signals an error. -/
theorem overflow_violated : stringToWord "10000000000000005".toList 0 none none = .ok (5, 17) ∧
    stringToInteger "10000000000000005".toList 16 0 none none = .overflow := by
  decide +kernel

end Verif.WordString
