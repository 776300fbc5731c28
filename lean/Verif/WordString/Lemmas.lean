import Verif.WordString.Spec
import Verif.IntString.Props

namespace Verif.WordString

open Verif.IntString

theorem numeral_cat (b : Nat) : ∀ xs ys : List Nat,
    numeral b (xs ++ ys) = numeral b xs * b ^ ys.length + numeral b ys
  | [], ys => by simp [numeral]
  | x :: xs, ys => by
    simp only [List.cons_append, numeral, numeral_cat b xs ys, List.length_append, pow_add]
    ring

theorem numeral_zeros (b : Nat) (ys : List Nat) : ∀ k, numeral b (List.replicate k 0 ++ ys) = numeral b ys
  | 0 => rfl
  | k + 1 => by
    rw [List.replicate_succ, List.cons_append]
    simp only [numeral, Nat.zero_mul, Nat.zero_add]
    exact numeral_zeros b ys k

/-- A numeral with a digit that is not zero in front is not small. -/
theorem numeral_lead {b d : Nat} {ds : List Nat} (hd : d ≠ 0) : b ^ ds.length ≤ numeral b (d :: ds) := by
  simp only [numeral]
  have : 1 * b ^ ds.length ≤ d * b ^ ds.length := Nat.mul_le_mul_right _ (by omega)
  omega

/-- Half a word. -/
theorem half {n : Nat} (hn : n < 2 ^ 32) : ∃ ds : List Nat, ds.length = 8 ∧ (∀ d ∈ ds, d < 16) ∧ numeral 16 ds = n ∧
    integerToString (n : Int) 16 8 '0' false = some (.ok (ds.map (glyph false))) := by
  obtain ⟨ds, h1, h2, h3, h4⟩ := integer_to_string_spec (n : Int) (by rw [fits_iff]; omega) 16 (by omega) (by omega) 8 '0'
    false
  have hlen : ds.length ≤ 8 := by
    rcases h3 with rfl | ⟨d, ds', rfl, hd⟩
    · simp
    · have h5 := numeral_lead (b := 16) (ds := ds') hd
      rw [h1, Int.natAbs_natCast] at h5
      have h6 : (16 : Nat) ^ ds'.length < 16 ^ 8 := by
        refine Nat.lt_of_le_of_lt h5 (Nat.lt_of_lt_of_le hn (by norm_num))
      have := (Nat.pow_lt_pow_iff_right (by omega : 1 < 16)).1 h6
      simp only [List.length_cons]
      omega
  have h0 : ¬ (n : Int) < 0 := by omega
  refine ⟨List.replicate (8 - ds.length) 0 ++ ds, by simp; omega, ?_, ?_, ?_⟩
  · intro d hd
    rcases List.mem_append.1 hd with hd | hd
    · rw [List.eq_of_mem_replicate hd]; omega
    · exact h2 d hd
  · rw [numeral_zeros, h1, Int.natAbs_natCast]
  · rw [show ((16 : Nat) : Int) = 16 from rfl] at h4
    rw [h4]
    have hg : glyph false 0 = '0' := by decide
    simp only [h0, if_false, List.nil_append, List.map_append, List.map_replicate, hg]
    have : ((8 : Int) - (ds.length : Int) - 0).toNat = 8 - ds.length := by omega
    rw [this]
    simp

theorem high_nat (w : BitVec 64) : (w >>> 32).toNat = w.toNat / 2 ^ 32 := by
  rw [BitVec.toNat_ushiftRight, Nat.shiftRight_eq_div_pow]

theorem low_nat (w : BitVec 64) : ((w <<< 32) >>> 32).toNat = w.toNat % 2 ^ 32 := by
  rw [BitVec.toNat_ushiftRight, BitVec.toNat_shiftLeft, Nat.shiftRight_eq_div_pow, Nat.shiftLeft_eq]
  omega

theorem step_word (v d : Nat) (hd : d < 16) :
    (BitVec.ofNat 64 v <<< 4) ||| BitVec.ofNat 64 d = BitVec.ofNat 64 (v * 16 + d) := by
  apply BitVec.eq_of_toNat_eq
  rw [BitVec.toNat_or, BitVec.toNat_shiftLeft, BitVec.toNat_ofNat, BitVec.toNat_ofNat, BitVec.toNat_ofNat, Nat.shiftLeft_eq]
  have hd' : d % 2 ^ 64 = d := Nat.mod_eq_of_lt (by omega)
  have h1 : v % 2 ^ 64 * 2 ^ 4 % 2 ^ 64 = 2 ^ 4 * (v % 2 ^ 60) := by omega
  rw [hd', h1, ← Nat.two_pow_add_eq_or_of_lt (by omega : d < 2 ^ 4)]
  omega

theorem readWord_spec : ∀ (cs : List Char) (i v : Nat), ∃ digits rest, cs = digits ++ rest ∧
    (∀ c ∈ digits, IsDigit 16 c) ∧ (∀ c cs', rest = c :: cs' → ¬ IsDigit 16 c) ∧
    readWord cs i (BitVec.ofNat 64 v) =
      (BitVec.ofNat 64 (v * 16 ^ digits.length + meaning digits), i + digits.length, rest.isEmpty)
  | [], i, v => ⟨[], [], rfl, by simp, by simp, by simp [readWord, meaning, numeral]⟩
  | c :: cs, i, v => by
    by_cases hd : IsDigit 16 c
    · obtain ⟨d, hd1, hd2⟩ := (isDigit_iff 16 c).1 hd
      have hdd : (digitOf c).getD 0 = d := by rw [← characterToInteger_eq, hd1]; rfl
      obtain ⟨digits, rest, h1, h2, h3, h4⟩ := readWord_spec cs (i + 1) (v * 16 + d)
      refine ⟨c :: digits, rest, by simp [h1], ?_, h3, ?_⟩
      · intro x hx
        rcases List.mem_cons.1 hx with rfl | hx
        · exact hd
        · exact h2 x hx
      · simp only [readWord, hd1]
        rw [if_neg (by omega), step_word v d hd2, h4]
        refine Prod.ext ?_ (Prod.ext (by simp; omega) rfl)
        simp only [meaning, List.map_cons, numeral, hdd, List.length_map, List.length_cons, pow_succ]
        congr 1
        ring
    · refine ⟨[], c :: cs, rfl, by simp, fun x xs he => by cases he; exact hd, ?_⟩
      simp only [readWord]
      cases hc : characterToInteger c with
      | none => simp [meaning, numeral]
      | some d =>
        have : ¬ d < 16 := fun h => hd ((isDigit_iff 16 c).2 ⟨d, hc, h⟩)
        simp only
        rw [if_pos (by omega)]
        simp [meaning, numeral]

theorem skipPrefix_spec (cs : List Char) (i : Nat) : ∃ pre rest, cs = pre ++ rest ∧
    (pre = [] ∨ ((pre = ['#', 'x'] ∨ pre = ['0', 'x']) ∧ rest ≠ [])) ∧
    (pre = [] → ∀ a b c cs, rest = a :: b :: c :: cs → ¬ ((a = '#' ∨ a = '0') ∧ b = 'x')) ∧
    skipPrefix cs i = (rest, i + pre.length) := by
  unfold skipPrefix
  split
  · rename_i a b c rest
    split
    · rename_i h
      refine ⟨[a, b], c :: rest, rfl, Or.inr ⟨?_, by simp⟩, by simp, rfl⟩
      rcases h with ⟨rfl, rfl⟩ | ⟨rfl, rfl⟩
      · exact Or.inl rfl
      · exact Or.inr rfl
    · rename_i h
      refine ⟨[], a :: b :: c :: rest, rfl, Or.inl rfl, ?_, rfl⟩
      intro _ a' b' c' cs' he hc
      simp only [List.cons.injEq] at he
      obtain ⟨rfl, rfl, rfl, rfl⟩ := he
      apply h
      rcases hc with ⟨rfl | rfl, rfl⟩
      · exact Or.inl ⟨rfl, rfl⟩
      · exact Or.inr ⟨rfl, rfl⟩
  · rename_i hne
    refine ⟨[], _, rfl, Or.inl rfl, ?_, rfl⟩
    intro _ a b c cs' he
    exact absurd he (hne a b c cs')

theorem span_unique (P : Char → Prop) : ∀ (a1 a2 c1 c2 : List Char), (∀ c ∈ a1, P c) → (∀ c ∈ a2, P c) →
    (∀ c cs, c1 = c :: cs → ¬ P c) → (∀ c cs, c2 = c :: cs → ¬ P c) → a1 ++ c1 = a2 ++ c2 → a1 = a2 ∧ c1 = c2
  | [], [], c1, c2, _, _, _, _, h => ⟨rfl, by simpa using h⟩
  | [], y :: ys, c1, c2, _, h2, h3, _, h => by
    exact absurd (h2 y (by simp)) (h3 y (ys ++ c2) (by simpa using h))
  | x :: xs, [], c1, c2, h1, _, _, h4, h => by
    exact absurd (h1 x (by simp)) (h4 x (xs ++ c1) (by simpa using h.symm))
  | x :: xs, y :: ys, c1, c2, h1, h2, h3, h4, h => by
    simp only [List.cons_append, List.cons.injEq] at h
    obtain ⟨rfl, h⟩ := h
    obtain ⟨rfl, rfl⟩ := span_unique P xs ys c1 c2 (fun c hc => h1 c (by simp [hc])) (fun c hc => h2 c (by simp [hc])) h3 h4 h
    exact ⟨rfl, rfl⟩

end Verif.WordString
