import Verif.MwFold.Spec

namespace Verif.MwFold

theorem wordOf_masked (x : Int) : wordOf (masked x) = wordOf x := by
  unfold wordOf masked
  apply BitVec.eq_of_toNat_eq
  simp only [BitVec.toNat_ofInt]
  omega

theorem wordOf_literal (x : Int) : wordOf (literal x) = wordOf x := by
  unfold literal
  cases isInteger x with
  | true => rfl
  | false => exact wordOf_masked x

theorem extractUnsigned_eq (x : Int) : extractUnsigned x = ((wordOf x).toNat : Int) := by
  unfold extractUnsigned wordOf masked
  simp only [BitVec.toNat_ofInt]
  omega

theorem signExtend_eq (x : Int) : signExtend x = (wordOf x).toInt := by
  unfold signExtend wordOf masked
  rw [BitVec.toInt_ofInt]
  unfold Int.bmod
  simp only
  split <;> split <;> omega

theorem toInt_small (x : Int) (h : -2 ^ 63 ≤ x ∧ x < 2 ^ 63) : (wordOf x).toInt = x := by
  unfold wordOf
  rw [BitVec.toInt_ofInt]
  unfold Int.bmod
  simp only
  split <;> omega

theorem isInteger_iff (x : Int) : isInteger x = true ↔ -2 ^ 61 ≤ x ∧ x < 2 ^ 61 := by
  simp only [isInteger, decide_eq_true_eq]

theorem extractSigned_eq (x : Int) : extractSigned x = (wordOf x).toInt := by
  unfold extractSigned
  split
  · rename_i h
    rw [isInteger_iff] at h
    rw [toInt_small x (by omega)]
  · exact signExtend_eq x

theorem wordOf_toNat (w : BitVec 64) : wordOf (w.toNat : Int) = w := by
  apply BitVec.eq_of_toNat_eq
  have := w.isLt
  simp only [wordOf, BitVec.toNat_ofInt]
  omega

theorem wordOf_toInt (w : BitVec 64) : wordOf w.toInt = w := by
  simp only [wordOf, BitVec.ofInt_toInt]

theorem wordOf_wide (x : Int) : (BitVec.ofInt 128 x).setWidth 64 = wordOf x := by
  apply BitVec.eq_of_toNat_eq
  simp only [wordOf, BitVec.toNat_setWidth, BitVec.toNat_ofInt]
  omega

theorem wordOf_wide_toInt (b : BitVec 128) : wordOf b.toInt = b.setWidth 64 := by
  rw [← wordOf_wide, BitVec.ofInt_toInt]

theorem wordOf_dand (x y : Int) : wordOf (dand x y) = wordOf x &&& wordOf y := by
  unfold dand
  rw [wordOf_wide_toInt, BitVec.setWidth_and, wordOf_wide, wordOf_wide]

theorem wordOf_dor (x y : Int) : wordOf (dor x y) = wordOf x ||| wordOf y := by
  unfold dor
  rw [wordOf_wide_toInt, BitVec.setWidth_or, wordOf_wide, wordOf_wide]

theorem wordOf_dxor (x y : Int) : wordOf (dxor x y) = wordOf x ^^^ wordOf y := by
  unfold dxor
  rw [wordOf_wide_toInt, BitVec.setWidth_xor, wordOf_wide, wordOf_wide]

theorem wordOf_dnot (x : Int) : wordOf (dnot x) = ~~~ wordOf x := by
  unfold dnot
  apply BitVec.eq_of_toNat_eq
  simp only [wordOf, BitVec.toNat_not, BitVec.toNat_ofInt]
  omega

theorem wordOf_add (x y : Int) : wordOf (x + y) = wordOf x + wordOf y := by
  simp only [wordOf, BitVec.ofInt_add]

theorem wordOf_neg (x : Int) : wordOf (-x) = - wordOf x := by
  simp only [wordOf, BitVec.ofInt_neg]

theorem wordOf_sub (x y : Int) : wordOf (x - y) = wordOf x - wordOf y := by
  rw [Int.sub_eq_add_neg, wordOf_add, wordOf_neg, BitVec.sub_eq_add_neg]

theorem wordOf_mul (x y : Int) : wordOf (x * y) = wordOf x * wordOf y := by
  simp only [wordOf, BitVec.ofInt_mul]

theorem wordOf_pow (n : Nat) : wordOf (2 ^ n) = 1#64 <<< n := by
  have e : ((2 : Int) ^ n) = ((2 ^ n : Nat) : Int) := by simp
  rw [e]
  simp only [wordOf, BitVec.ofInt_natCast]
  apply BitVec.eq_of_toNat_eq
  simp [BitVec.toNat_shiftLeft, Nat.shiftLeft_eq]

theorem wordOf_mul_pow (x : Int) (n : Nat) : wordOf (x * 2 ^ n) = wordOf x <<< n := by
  rw [wordOf_mul, wordOf_pow]
  apply BitVec.eq_of_toNat_eq
  simp only [BitVec.toNat_mul, BitVec.toNat_shiftLeft, Nat.shiftLeft_eq, BitVec.toNat_ofNat]
  simp [Nat.mul_mod]

theorem double_eq {x y : Int} (h : double x = some y) : y = x := by
  unfold double at h
  split at h
  · exact (Option.some.inj h).symm
  · exact absurd h (by simp)

theorem ash_left {x : Int} {n : Nat} {y : Int} (h : ash x (n : Int) = some y) : y = x * 2 ^ n := by
  unfold ash at h
  rw [if_pos (by omega)] at h
  have := double_eq h
  simpa using this

theorem ash_right {x : Int} {n : Nat} {y : Int} (h : ash x (-(n : Int)) = some y) : y = x / 2 ^ n := by
  unfold ash at h
  split at h
  · rename_i h0
    have hn : n = 0 := by omega
    subst hn
    have := double_eq h
    simpa using this
  · have := Option.some.inj h
    simp only [Int.neg_neg, Int.toNat_natCast] at this
    exact this.symm

theorem dand_high {x : Int} (hx : -2 ^ 127 ≤ x ∧ x < 2 ^ 127) :
    dand x (dnot (2 ^ 64 - 1)) / 2 ^ 64 = x / 2 ^ 64 := by
  have e : dnot (2 ^ 64 - 1) = -(2 ^ 64 : Int) := by decide
  rw [e]
  have e2 : BitVec.ofInt 128 (-(2 ^ 64 : Int)) = BitVec.allOnes 128 <<< 64 := by decide
  unfold dand
  rw [e2]
  have e3 : (BitVec.ofInt 128 x &&& BitVec.allOnes 128 <<< 64).sshiftRight 64 = (BitVec.ofInt 128 x).sshiftRight 64 := by
    apply BitVec.eq_of_getLsbD_eq
    intro i hi
    simp only [BitVec.getLsbD_sshiftRight, BitVec.getLsbD_and, BitVec.getLsbD_shiftLeft, BitVec.getLsbD_allOnes,
      BitVec.msb_eq_getLsbD_last]
    by_cases h2 : 64 + i < 128
    · have h3 : ¬ (64 + i < 64) := by omega
      simp [h2, h3, hi]
    · simp [h2]
  have e4 := congrArg BitVec.toInt e3
  rw [BitVec.toInt_sshiftRight, BitVec.toInt_sshiftRight, Int.shiftRight_eq_div_pow, Int.shiftRight_eq_div_pow] at e4
  have e5 : (BitVec.ofInt 128 x).toInt = x := by
    rw [BitVec.toInt_ofInt]
    unfold Int.bmod
    simp only
    split <;> omega
  rw [e5] at e4
  simpa using e4

/-- The checked results are those that fit in a signed word. -/
theorem literalWithOverflow_eq {x y : Int} (hx : -2 ^ 127 ≤ x ∧ x < 2 ^ 127)
    (h : literalWithOverflow x = some y) : wordOf y = wordOf x ∧ -2 ^ 63 ≤ x ∧ x < 2 ^ 63 := by
  unfold literalWithOverflow at h
  split at h
  · rename_i hi
    rw [isInteger_iff] at hi
    refine ⟨?_, by omega, by omega⟩
    rw [← Option.some.inj h, wordOf_literal]
  · simp only at h
    split at h
    · rename_i hc
      refine ⟨by rw [← Option.some.inj h, wordOf_literal], ?_⟩
      have hd := dand_high hx
      rw [hd, signExtend_eq] at hc
      have : (wordOf x).toInt = x.bmod (2 ^ 64) := by simp only [wordOf, BitVec.toInt_ofInt]
      rw [this] at hc
      unfold Int.bmod at hc
      simp only at hc
      split at hc <;> omega
    · exact absurd h (by simp)

/-! ### The folders on words -/

/-- The operands of a body, as words. -/
def operands (p : Prim) (ws : List (BitVec 64)) : List Int :=
  ws.map fun w => if signed p then w.toInt else (w.toNat : Int)

theorem fold_eq (p : Prim) (args : List Int) :
    fold p args = (body p (operands p (args.map wordOf))).bind (finish p) := by
  unfold fold operands
  rw [List.map_map]
  congr 2
  apply List.map_congr_left
  intro x _
  cases h : signed p with
  | true => simp [extractSigned_eq]
  | false => simp [extractUnsigned_eq]

theorem finish_flag {p : Prim} {b : Bool} {r : Result} (h : finish p (.flag b) = some r) : r = .flag b :=
  (Option.some.inj h).symm

theorem finish_number {p : Prim} {x : Int} {r : Result} (hp : checked p = false) (h : finish p (.number x) = some r) :
    outOf r = .word (wordOf x) := by
  simp only [finish, hp] at h
  rw [← Option.some.inj h]
  simp only [outOf, wordOf_literal]

theorem double_range {x y : Int} (h : double x = some y) : -2 ^ 127 ≤ x ∧ x < 2 ^ 127 := by
  unfold double at h
  split at h
  · assumption
  · exact absurd h (by simp)

theorem finish_checked {p : Prim} {x : Int} {r : Result} (hp : checked p = true) (hx : -2 ^ 127 ≤ x ∧ x < 2 ^ 127)
    (h : finish p (.number x) = some r) : outOf r = exact x ∧ -2 ^ 63 ≤ x ∧ x < 2 ^ 63 := by
  simp only [finish, hp] at h
  cases hl : literalWithOverflow x with
  | none => rw [hl] at h; exact absurd h (by simp)
  | some y =>
    rw [hl] at h
    have e := literalWithOverflow_eq hx hl
    have hr : r = .number y := (Option.some.inj h).symm
    subst hr
    refine ⟨?_, e.2⟩
    unfold exact
    rw [if_pos e.2]
    simp only [outOf, e.1]
    rfl

theorem bind_double {x : Int} {k : Result → Option Result} {r : Result}
    (h : ((double x).map Result.number).bind k = some r) :
    (-2 ^ 127 ≤ x ∧ x < 2 ^ 127) ∧ k (.number x) = some r := by
  cases hd : double x with
  | none => rw [hd] at h; exact absurd h (by simp)
  | some y =>
    rw [hd] at h
    have hy := double_eq hd
    subst hy
    exact ⟨double_range hd, h⟩

theorem bind_ash_left {x : Int} {n : Nat} {f : Int → Result} {k : Result → Option Result} {r : Result}
    (h : ((ash x (n : Int)).map f).bind k = some r) :
    (-2 ^ 127 ≤ x * 2 ^ n ∧ x * 2 ^ n < 2 ^ 127) ∧ k (f (x * 2 ^ n)) = some r := by
  cases hd : ash x (n : Int) with
  | none => rw [hd] at h; exact absurd h (by simp)
  | some y =>
    rw [hd] at h
    have hy := ash_left hd
    subst hy
    unfold ash at hd
    rw [if_pos (by omega)] at hd
    have := double_range hd
    simp only [Int.toNat_natCast] at this
    exact ⟨this, h⟩

theorem bind_ash_right {x : Int} {n : Nat} {f : Int → Result} {k : Result → Option Result} {r : Result}
    (h : ((ash x (-(n : Int))).map f).bind k = some r) : k (f (x / 2 ^ n)) = some r := by
  cases hd : ash x (-(n : Int)) with
  | none => rw [hd] at h; exact absurd h (by simp)
  | some y =>
    rw [hd] at h
    have hy := ash_right hd
    subst hy
    exact h

theorem toInt_nonneg_count {n : BitVec 64} (h : n.toNat < 64) : n.toInt = (n.toNat : Int) := by
  rw [BitVec.toInt_eq_toNat_cond]
  split
  · rfl
  · omega

theorem dand_nat {a b : Nat} (ha : a < 2 ^ 127) (hb : b < 2 ^ 127) : dand (a : Int) (b : Int) = ((a &&& b : Nat) : Int) := by
  unfold dand
  have e : (BitVec.ofInt 128 (a : Int) &&& BitVec.ofInt 128 (b : Int)).toNat = a &&& b := by
    rw [BitVec.toNat_and, BitVec.ofInt_natCast, BitVec.ofInt_natCast, BitVec.toNat_ofNat, BitVec.toNat_ofNat,
      Nat.mod_eq_of_lt (by omega), Nat.mod_eq_of_lt (by omega)]
  have hlt : a &&& b < 2 ^ 127 := Nat.and_lt_two_pow _ hb
  rw [BitVec.toInt_eq_toNat_cond, e, if_pos (by omega)]

theorem wordOf_ones (s : Nat) : wordOf (2 ^ s - 1) = (BitVec.allOnes s).setWidth 64 := by
  have e : ((2 : Int) ^ s - 1) = ((2 ^ s - 1 : Nat) : Int) := by
    have := Nat.one_le_two_pow (n := s)
    push_cast [this]
    rfl
  rw [e]
  unfold wordOf
  rw [BitVec.ofInt_natCast]
  apply BitVec.eq_of_toNat_eq
  simp [BitVec.toNat_setWidth, BitVec.toNat_allOnes]

theorem field_bits (x : BitVec 64) {o s : Nat} (h : o + s ≤ 64) :
    wordOf (dand (x.toNat : Int) ((2 ^ s - 1) * 2 ^ o) / 2 ^ o) = (x.extractLsb' o s).setWidth 64 := by
  have hx := x.isLt
  have e1 : (((2 : Int) ^ s - 1) * 2 ^ o) = (((2 ^ s - 1) * 2 ^ o : Nat) : Int) := by
    have := Nat.one_le_two_pow (n := s)
    push_cast [this]
    rfl
  have hm : (2 ^ s - 1) * 2 ^ o < 2 ^ 127 := by
    have h1 : (2 ^ s - 1) * 2 ^ o ≤ 2 ^ s * 2 ^ o := Nat.mul_le_mul_right _ (Nat.sub_le _ _)
    rw [← Nat.pow_add] at h1
    have h2 : 2 ^ (s + o) ≤ 2 ^ 64 := Nat.pow_le_pow_right (by omega) (by omega)
    omega
  rw [e1, dand_nat (by omega) hm]
  have e2 : (((x.toNat &&& (2 ^ s - 1) * 2 ^ o : Nat) : Int) / 2 ^ o) = (((x.toNat &&& (2 ^ s - 1) * 2 ^ o) >>> o : Nat) : Int) := by
    rw [Nat.shiftRight_eq_div_pow]
    push_cast
    rfl
  rw [e2]
  unfold wordOf
  rw [BitVec.ofInt_natCast]
  apply BitVec.eq_of_getLsbD_eq
  intro i hi
  rw [BitVec.getLsbD_ofNat, BitVec.getLsbD_setWidth, BitVec.getLsbD_extractLsb', Nat.testBit_shiftRight, Nat.testBit_and,
    ← Nat.shiftLeft_eq, Nat.testBit_shiftLeft, Nat.testBit_two_pow_sub_one]
  have e3 : o + i - o = i := by omega
  rw [e3]
  by_cases hs : i < s
  · simp [hi, hs, BitVec.getLsbD]
  · simp [hs]

theorem deposit_bits (f x : BitVec 64) (o s : Nat) :
    wordOf (dor (dand (x.toNat : Int) (dnot ((2 ^ s - 1) * 2 ^ o))) ((f.toNat : Int) * 2 ^ o)) =
      (x &&& ~~~ ((BitVec.allOnes s).setWidth 64 <<< o)) ||| (f <<< o) := by
  rw [wordOf_dor, wordOf_dand, wordOf_dnot, wordOf_toNat, wordOf_mul_pow, wordOf_mul_pow, wordOf_ones, wordOf_toNat]

theorem bind_some' {α β : Type} {x : Option α} {f : α → Option β} {b : β} (h : x.bind f = some b) :
    ∃ a, x = some a ∧ f a = some b := by
  cases x with
  | none => exact nomatch h
  | some a => exact ⟨a, rfl, h⟩

theorem map_some' {α β : Type} {x : Option α} {f : α → β} {b : β} (h : x.map f = some b) :
    ∃ a, x = some a ∧ f a = b := by
  cases x with
  | none => exact nomatch h
  | some a => exact ⟨a, rfl, Option.some.inj h⟩

theorem deposit_eq {f x y : Int} {o s : Nat} (h : bitFieldDeposit f o s x = some y) :
    y = dor (dand x (dnot ((2 ^ s - 1) * 2 ^ o))) (f * 2 ^ o) := by
  unfold bitFieldDeposit at h
  obtain ⟨ones, h1, h⟩ := bind_some' h
  obtain ⟨mask, h2, h⟩ := bind_some' h
  obtain ⟨q, h3, h⟩ := map_some' h
  rw [← h, ash_left h3, ash_left h2, ash_left h1, Int.one_mul]

theorem extract_eq {x y : Int} {o s : Nat} (h : bitFieldExtract o s x = some y) :
    y = dand x ((2 ^ s - 1) * 2 ^ o) / 2 ^ o := by
  unfold bitFieldExtract at h
  obtain ⟨ones, h1, h⟩ := bind_some' h
  obtain ⟨mask, h2, h⟩ := bind_some' h
  rw [ash_right h, ash_left h2, ash_left h1, Int.one_mul]

theorem bit_flag (y : BitVec 64) {i : Nat} (h : i < 64) :
    decide (dand (y.toNat : Int) (1 * 2 ^ i) ≠ 0) = y.getLsbD i := by
  have hy := y.isLt
  have hp : 2 ^ i ≤ 2 ^ 63 := Nat.pow_le_pow_right (by omega) (by omega)
  have e : ((1 : Int) * 2 ^ i) = ((2 ^ i : Nat) : Int) := by push_cast; omega
  rw [e, dand_nat (by omega) (by omega)]
  unfold BitVec.getLsbD
  have hb (j : Nat) : (y.toNat &&& 2 ^ i).testBit j = (y.toNat.testBit j && decide (i = j)) := by
    rw [Nat.testBit_and, Nat.testBit_two_pow]
  cases hc : Nat.testBit y.toNat i with
  | true =>
    have : y.toNat &&& 2 ^ i ≠ 0 := by
      intro h0
      have := hb i
      rw [h0, hc] at this
      simp at this
    simp only [decide_eq_true_eq]
    omega
  | false =>
    have : y.toNat &&& 2 ^ i = 0 := by
      apply Nat.eq_of_testBit_eq
      intro j
      rw [hb]
      by_cases hj : i = j
      · subst hj; simp [hc]
      · simp [hj]
    simp only [decide_eq_false_iff_not]
    omega

theorem toInt_low {x : BitVec 64} (h : x.toNat < 2 ^ 63) : x.toInt = (x.toNat : Int) := by
  rw [BitVec.toInt_eq_toNat_cond, if_pos (by omega)]

theorem toInt_high {x : BitVec 64} (h : 2 ^ 63 ≤ x.toNat) : x.toInt = (x.toNat : Int) - 2 ^ 64 := by
  rw [BitVec.toInt_eq_toNat_cond, if_neg (by omega)]
  rfl

theorem add_low {x y : BitVec 64} (h : (x.toNat : Int) + y.toNat < 2 ^ 63) :
    (x.toNat : Int) + y.toNat = x.toInt + y.toInt := by
  rw [toInt_low (x := x) (by omega), toInt_low (x := y) (by omega)]

theorem mul_low {x y : BitVec 64} (h : (x.toNat : Int) * y.toNat < 2 ^ 63) :
    (x.toNat : Int) * y.toNat = x.toInt * y.toInt := by
  have hn : x.toNat * y.toNat < 2 ^ 63 := by exact_mod_cast h
  by_cases hx : x.toNat = 0
  · rw [toInt_low (x := x) (by omega), hx]; simp
  by_cases hy : y.toNat = 0
  · rw [toInt_low (x := y) (by omega), hy]; simp
  have h1 : x.toNat ≤ x.toNat * y.toNat := Nat.le_mul_of_pos_right _ (by omega)
  have h2 : y.toNat ≤ x.toNat * y.toNat := Nat.le_mul_of_pos_left _ (by omega)
  rw [toInt_low (x := x) (by omega), toInt_low (x := y) (by omega)]

theorem literalWithOverflow_some {x : Int} (hx : -2 ^ 63 ≤ x ∧ x < 2 ^ 63) : literalWithOverflow x = some (literal x) := by
  unfold literalWithOverflow
  split
  · rfl
  · rename_i hi
    simp only
    have hs : signExtend x = x := by rw [signExtend_eq, toInt_small x hx]
    rw [hs]
    have hd : dand x (dnot (2 ^ 64 - 1)) / 2 ^ 64 = x / 2 ^ 64 := dand_high ⟨by omega, by omega⟩
    rw [hd, if_pos (by omega)]

theorem toInt_lt_zero (x : BitVec 64) : -2 ^ 63 ≤ x.toInt ∧ x.toInt < 2 ^ 63 := by
  have h := x.isLt
  rw [BitVec.toInt_eq_toNat_cond]
  split <;> omega

end Verif.MwFold
