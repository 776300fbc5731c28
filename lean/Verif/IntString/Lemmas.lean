/-
Lemmas about numerals.
-/
import Verif.IntString.Spec
import Mathlib.Tactic.Ring
import Mathlib.Tactic.Linarith
import Mathlib.Data.List.Basic
import Mathlib.Data.List.TakeWhile

namespace Verif.IntString

theorem numeral_append (base : Nat) (ds : List Nat) (d : Nat) :
    numeral base (ds ++ [d]) = numeral base ds * base + d := by
  induction ds with
  | nil => simp [numeral]
  | cons x ds ih => simp only [List.cons_append, numeral, ih, List.length_append, List.length_cons,
      List.length_nil]; ring

theorem idxOf?_none_of {c : Char} {l : List Char} (h : c ∉ l) : l.idxOf? c = none := by
  simpa using h

theorem characterToInteger_eq (c : Char) : characterToInteger c = digitOf c := by
  by_cases h : c.toNat < 128
  · have key : ∀ n < 128, characterToInteger (Char.ofNat n) = digitOf (Char.ofNat n) := by
      decide +kernel
    have := key c.toNat h
    rwa [Char.ofNat_toNat] at this
  · have h1 : ∀ x ∈ "0123456789ABCDEFGHIJKLMNOPQRSTUVWXYZ".toList, x.toNat < 128 := by
      decide +kernel
    have h2 : ∀ x ∈ "0123456789abcdefghijklmnopqrstuvwxyz".toList, x.toNat < 128 := by
      decide +kernel
    have e : digitOf c = none := by
      simp only [digitOf]
      rw [idxOf?_none_of fun hc => h (h1 c hc), idxOf?_none_of fun hc => h (h2 c hc)]
      rfl
    rw [e]
    simp only [characterToInteger]
    rw [if_neg (by omega), if_neg (by omega), if_neg (by omega)]

theorem whitespace_iff (c : Char) : whitespace c = true ↔ IsBlank c := by
  simp only [whitespace, IsBlank, List.mem_cons, List.not_mem_nil, or_false, decide_eq_true_eq]
  have : c = Char.ofNat 0xC ↔ c.toNat = 12 := by
    constructor
    · rintro rfl; decide
    · intro h; rw [← Char.ofNat_toNat c, h]
  rw [this]

/-! ### writing -/

theorem glyph_upper {d : Nat} (h : d < 36) : integerToCharacter d = glyph false d := by
  have : ∀ d < 36, integerToCharacter (d : Nat) = glyph false d := by decide +kernel
  exact this d h

theorem glyph_lower {d : Nat} (h : d < 36) : asLowercase (integerToCharacter d) = glyph true d := by
  have : ∀ d < 36, asLowercase (integerToCharacter (d : Nat)) = glyph true d := by decide +kernel
  exact this d h

theorem digitOf_glyph {d : Nat} (h : d < 36) (l : Bool) : digitOf (glyph l d) = some d := by
  have : ∀ d < 36, ∀ l, digitOf (glyph l d) = some d := by decide +kernel
  exact this d h l

theorem glyph_blank {d : Nat} (h : d < 36) (l : Bool) :
    ¬ IsBlank (glyph l d) ∧ glyph l d ≠ '+' ∧ glyph l d ≠ '-' := by
  have : ∀ d < 36, ∀ l, whitespace (glyph l d) = false ∧ glyph l d ≠ '+' ∧ glyph l d ≠ '-' := by
    decide +kernel
  obtain ⟨h1, h2⟩ := this d h l
  exact ⟨fun hb => absurd ((whitespace_iff _).2 hb) (by simp [h1]), h2⟩

theorem digitLoop_spec {base : Nat} (hb : 2 ≤ base) (hb' : base ≤ 36) : ∀ (fuel n : Nat)
    (buffer : List Char), n < 2 ^ fuel → ∃ ds : List Nat, numeral base ds = n ∧
      (∀ d ∈ ds, d < base) ∧ (∀ d ds', ds = d :: ds' → d ≠ 0) ∧
      digitLoop base fuel n buffer = some (buffer ++ (ds.map (glyph false)).reverse)
  | fuel, 0, buffer, _ => ⟨[], rfl, by simp, by simp, by unfold digitLoop; simp⟩
  | 0, n + 1, buffer, h => by simp at h
  | fuel + 1, n + 1, buffer, h => by
    have hq : (n + 1) / base < 2 ^ fuel := by
      rw [Nat.div_lt_iff_lt_mul (by omega)]
      calc n + 1 < 2 ^ (fuel + 1) := h
        _ = 2 ^ fuel * 2 := by ring
        _ ≤ 2 ^ fuel * base := Nat.mul_le_mul_left _ hb
    obtain ⟨ds, h1, h2, h3, h4⟩ := digitLoop_spec hb hb' fuel ((n + 1) / base)
      (buffer ++ [integerToCharacter ((n + 1) % base : Nat)]) hq
    have hr : (n + 1) % base < base := Nat.mod_lt _ (by omega)
    refine ⟨ds ++ [(n + 1) % base], ?_, ?_, ?_, ?_⟩
    · rw [numeral_append, h1, Nat.mul_comm, Nat.div_add_mod]
    · intro d hd
      rcases List.mem_append.1 hd with hd | hd
      · exact h2 d hd
      · simp at hd; omega
    · intro d ds' he
      cases ds with
      | nil =>
        simp at he
        have : (n + 1) / base = 0 := by rw [← h1]; rfl
        have := Nat.div_add_mod (n + 1) base
        rw [‹(n + 1) / base = 0›] at this
        omega
      | cons x xs =>
        simp at he
        exact he.1 ▸ h3 x xs rfl
    · unfold digitLoop
      rw [if_neg (by omega)]
      have e1 : ((n + 1 : Nat) : Int).tdiv (base : Int) = ((n + 1) / base : Nat) := by
        rw [← Int.ofNat_tdiv]
      have e2 : ((n + 1 : Nat) : Int).tmod (base : Int) = ((n + 1) % base : Nat) := by
        rw [← Int.ofNat_tmod]
      simp only [e1, e2]
      rw [h4, glyph_upper (by omega)]
      simp

theorem digits_spec {base : Nat} (hb : 2 ≤ base) (hb' : base ≤ 36) {n : Int}
    (hn : n.natAbs ≤ 2 ^ 61) :
    ∃ ds : List Nat, numeral base ds = n.natAbs ∧ (∀ d ∈ ds, d < base) ∧
      (ds = [0] ∨ ∃ d ds', ds = d :: ds' ∧ d ≠ 0) ∧
      digitLoop base 62 (if n < 0 then -(n.tdiv base) else n)
        (if n < 0 then (if n = 0 then ['0'] else []) ++ [integerToCharacter (-(n.tmod base))]
         else if n = 0 then ['0'] else []) = some (ds.map (glyph false)).reverse := by
  by_cases h0 : n = 0
  · subst h0
    exact ⟨[0], by simp [numeral], by simp; omega, .inl rfl, by simp [digitLoop]; decide⟩
  · by_cases hneg : n < 0
    · obtain ⟨k, rfl⟩ : ∃ k : Nat, n = -(k : Int) := ⟨n.natAbs, by omega⟩
      simp only [Int.natAbs_neg, Int.natAbs_natCast] at hn ⊢
      rw [if_pos hneg, if_pos hneg, if_neg h0]
      have e1 : -(-(k : Int)).tdiv (base : Int) = (k / base : Nat) := by
        rw [Int.neg_tdiv, Int.neg_neg, ← Int.ofNat_tdiv]
      have e2 : -(-(k : Int)).tmod (base : Int) = (k % base : Nat) := by
        rw [Int.neg_tmod, Int.neg_neg, ← Int.ofNat_tmod]
      rw [e1, e2]
      have hq : k / base < 2 ^ 62 := lt_of_le_of_lt (Nat.div_le_self _ _) (by omega)
      obtain ⟨ds, h1, h2, h3, h4⟩ := digitLoop_spec hb hb' 62 (k / base)
        ([] ++ [integerToCharacter (k % base : Nat)]) hq
      have hr : k % base < base := Nat.mod_lt _ (by omega)
      refine ⟨ds ++ [k % base], ?_, ?_, .inr ?_, ?_⟩
      · rw [numeral_append, h1, Nat.mul_comm, Nat.div_add_mod]
      · intro d hd
        rcases List.mem_append.1 hd with hd | hd
        · exact h2 d hd
        · simp at hd; omega
      · cases ds with
        | nil =>
          have h5 : k / base = 0 := by rw [← h1]; rfl
          have := Nat.div_add_mod k base
          rw [h5] at this
          exact ⟨_, _, rfl, by omega⟩
        | cons x xs => exact ⟨_, _, rfl, h3 x xs rfl⟩
      · rw [h4, glyph_upper (by omega)]
        simp
    · obtain ⟨k, rfl⟩ : ∃ k : Nat, n = (k : Int) := ⟨n.natAbs, by omega⟩
      simp only [Int.natAbs_natCast] at hn ⊢
      rw [if_neg hneg, if_neg hneg, if_neg h0]
      obtain ⟨ds, h1, h2, h3, h4⟩ := digitLoop_spec hb hb' 62 k [] (by omega)
      refine ⟨ds, h1, h2, .inr ?_, by rw [h4]; simp⟩
      cases ds with
      | nil => simp [numeral] at h1; omega
      | cons x xs => exact ⟨_, _, rfl, h3 x xs rfl⟩

/-! ### reading -/

theorem skipBlanks_spec : ∀ (cs : List Char) (i : Nat), ∃ blanks rest, cs = blanks ++ rest ∧
    (∀ c ∈ blanks, IsBlank c) ∧ (∀ c cs', rest = c :: cs' → ¬ IsBlank c) ∧
    skipBlanks cs i = (rest, i + blanks.length)
  | [], i => ⟨[], [], rfl, by simp, by simp, rfl⟩
  | c :: cs, i => by
    by_cases h : whitespace c = true
    · obtain ⟨b, r, h1, h2, h3, h4⟩ := skipBlanks_spec cs (i + 1)
      refine ⟨c :: b, r, by simp [h1], ?_, h3, ?_⟩
      · intro x hx
        rcases List.mem_cons.1 hx with rfl | hx
        · exact (whitespace_iff _).1 h
        · exact h2 x hx
      · simp only [skipBlanks, if_pos h, h4, List.length_cons]
        congr 1; omega
    · refine ⟨[], c :: cs, rfl, by simp, ?_, by simp [skipBlanks, h]⟩
      intro x xs he hb
      cases he
      exact h ((whitespace_iff _).2 hb)

theorem readSign_spec (cs : List Char) (i : Nat) : ∃ sign rest, cs = sign ++ rest ∧
    (sign = [] ∨ sign = ['+'] ∨ sign = ['-']) ∧
    (sign = [] → ∀ c cs', rest = c :: cs' → c ≠ '+' ∧ c ≠ '-') ∧
    readSign cs i = (if sign = ['-'] then -1 else 1, rest, i + sign.length) := by
  cases cs with
  | nil => exact ⟨[], [], rfl, .inl rfl, by simp, rfl⟩
  | cons c cs =>
    by_cases h1 : c = '+'
    · subst h1; exact ⟨['+'], cs, rfl, by simp, by simp, rfl⟩
    · by_cases h2 : c = '-'
      · subst h2; exact ⟨['-'], cs, rfl, by simp, by simp, rfl⟩
      · refine ⟨[], c :: cs, rfl, by simp, ?_, ?_⟩
        · rintro _ x xs he; cases he; exact ⟨h1, h2⟩
        · unfold readSign
          split
          · simp_all
          · simp_all
          · rfl

theorem isDigit_iff (base : Nat) (c : Char) :
    IsDigit base c ↔ ∃ d, characterToInteger c = some d ∧ d < base := by
  rw [characterToInteger_eq]; rfl

theorem characterToInteger_lt {c : Char} {d : Nat} (h : characterToInteger c = some d) : d < 36 := by
  unfold characterToInteger at h
  split_ifs at h <;> simp at h <;> omega

theorem fits_iff (n : Int) : fits n = true ↔ -(2 ^ 61) ≤ n ∧ n < 2 ^ 61 := by simp [fits]

theorem numeral_ge (base v : Nat) (hb : 1 ≤ base) (k m : Nat) : v ≤ v * base ^ k + m := by
  have : 1 ≤ base ^ k := Nat.one_le_pow _ _ hb
  nlinarith

theorem fits_mono {sign : Int} (hs : sign = 1 ∨ sign = -1) {a b : Nat} (h : a ≤ b)
    (hf : fits (sign * b) = true) : fits (sign * a) = true := by
  rw [fits_iff] at *
  rcases hs with rfl | rfl <;> omega

theorem digits_split (base : Nat) : ∀ cs : List Char, ∃ digits rest, cs = digits ++ rest ∧
    (∀ c ∈ digits, IsDigit base c) ∧ (∀ c cs', rest = c :: cs' → ¬ IsDigit base c)
  | [] => ⟨[], [], rfl, by simp, by simp⟩
  | c :: cs => by
    by_cases h : IsDigit base c
    · obtain ⟨d, r, h1, h2, h3⟩ := digits_split base cs
      refine ⟨c :: d, r, by simp [h1], ?_, h3⟩
      intro x hx
      rcases List.mem_cons.1 hx with rfl | hx
      · exact h
      · exact h2 x hx
    · exact ⟨[], c :: cs, rfl, by simp, fun x xs he => by cases he; exact h⟩

theorem readDigits_spec {base : Nat} (hb : 2 ≤ base) {sign : Int}
    (hs : sign = 1 ∨ sign = -1) : ∀ (cs : List Char) (i : Nat) (valid : Bool) (v : Nat),
    fits (sign * v) = true → ∃ digits rest, cs = digits ++ rest ∧
      (∀ c ∈ digits, IsDigit base c) ∧ (∀ c cs', rest = c :: cs' → ¬ IsDigit base c) ∧
      readDigits base sign cs i valid (sign * v) =
        (let x : Int := sign * ((v * base ^ digits.length +
          numeral base (digits.map fun c => (digitOf c).getD 0) : Nat) : Int)
        if fits x then some (valid || !digits.isEmpty, x, i + digits.length) else none)
  | [], i, valid, v, hf => ⟨[], [], rfl, by simp, by simp, by simp [readDigits, numeral, hf]⟩
  | c :: cs, i, valid, v, hf => by
    by_cases hd : IsDigit base c
    · obtain ⟨d, hd1, hd2⟩ := (isDigit_iff base c).1 hd
      have hd36 := characterToInteger_lt hd1
      have e : sign * (v : Int) * base + d * sign = sign * ((v * base + d : Nat) : Int) := by
        push_cast; ring
      have e2 : sign * (v : Int) * base = sign * ((v * base : Nat) : Int) := by push_cast; ring
      have hfd : fits (d * sign) = true := by
        rw [fits_iff]; rcases hs with rfl | rfl <;> omega
      have hdd : (digitOf c).getD 0 = d := by rw [← characterToInteger_eq, hd1]; rfl
      by_cases hf' : fits (sign * ((v * base + d : Nat) : Int)) = true
      · obtain ⟨digits, rest, h1, h2, h3, h4⟩ :=
          readDigits_spec hb hs cs (i + 1) true (v * base + d) hf'
        refine ⟨c :: digits, rest, by simp [h1], ?_, h3, ?_⟩
        · intro x hx
          rcases List.mem_cons.1 hx with rfl | hx
          · exact hd
          · exact h2 x hx
        · simp only [readDigits, hd1]
          rw [if_neg (by omega), e, e2, hfd, fits_mono hs (by omega) hf', hf']
          simp only [Bool.and_self, if_true]
          rw [h4]
          have e3 : (v * base + d) * base ^ digits.length +
              numeral base (digits.map fun c => (digitOf c).getD 0) =
              v * base ^ (c :: digits).length +
                numeral base ((c :: digits).map fun c => (digitOf c).getD 0) := by
            simp only [List.length_cons, List.map_cons, numeral, hdd, List.length_map]; ring
          rw [e3]
          simp only [List.length_cons, Bool.true_or, List.isEmpty_cons, Bool.not_false,
            Bool.or_true]
          rw [show i + 1 + digits.length = i + (digits.length + 1) by omega]
      · obtain ⟨digits, rest, h1, h2, h3⟩ := digits_split base cs
        refine ⟨c :: digits, rest, by simp [h1], ?_, h3, ?_⟩
        · intro x hx
          rcases List.mem_cons.1 hx with rfl | hx
          · exact hd
          · exact h2 x hx
        · simp only [readDigits, hd1]
          have e3 : (v * base + d) * base ^ digits.length +
              numeral base (digits.map fun c => (digitOf c).getD 0) =
              v * base ^ (c :: digits).length +
                numeral base ((c :: digits).map fun c => (digitOf c).getD 0) := by
            simp only [List.length_cons, List.map_cons, numeral, hdd, List.length_map]; ring
          rw [← e3, if_neg (by omega), e, e2, if_neg (by rw [Bool.and_eq_true]; exact fun h => hf' h.2), if_neg]
          exact fun h => hf' (fits_mono hs (numeral_ge base _ (by omega) _ _) h)
    · refine ⟨[], c :: cs, rfl, by simp, fun x xs he => by cases he; exact hd, ?_⟩
      have h0 : readDigits base sign (c :: cs) i valid (sign * v) = some (valid, sign * v, i) := by
        simp only [readDigits]
        rcases h : characterToInteger c with _ | d
        · rfl
        · simp only
          rw [if_pos]
          by_contra hlt
          exact hd ((isDigit_iff base c).2 ⟨d, h, by omega⟩)
      rw [h0]
      simp [numeral, hf]

end Verif.IntString
