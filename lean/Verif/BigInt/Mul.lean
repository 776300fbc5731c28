/-
Multiplication and comparison in the model of the `big-integers` library.
-/
import Verif.BigInt.Lemmas

namespace Verif.BigInt
open Verif.Integer Verif.MachineWord

theorem wrap_in128 (n : Int) : In128 (wrap n) := by
  unfold wrap In128; omega

theorem wrap_of {n : Int} (h : In128 n) : wrap n = n := by
  obtain ⟨a, b⟩ := h
  unfold wrap; omega

theorem eq_wrap {v n k : Int} (hv : In128 v) (e : v = n + 2 ^ 128 * k) : v = wrap n := by
  obtain ⟨a, b⟩ := hv
  unfold wrap; omega

/-- A word is its value as a signed number, up to a multiple of `2^64`. -/
theorem toNat_mod (x : Word) : ∃ k : Int, (x.toNat : Int) = x.toInt + 2 ^ 64 * k := by
  have := toNat_of_toInt x
  by_cases h : x.toInt < 0
  · rw [if_pos h] at this; exact ⟨1, by omega⟩
  · rw [if_neg h] at this; exact ⟨0, by omega⟩

theorem addCarry_mod (x y : Word) : ∃ k : Int, ((addCarry x y).1.toInt : Int) = x.toNat + y.toNat + 2 ^ 64 * k := by
  obtain ⟨h1, _⟩ := addCarry_val x y
  obtain ⟨k, hk⟩ := toNat_mod (addCarry x y).1
  exact ⟨- (addCarry x y).2.toInt - k, by rw [hk] at h1; rw [← h1]; ring⟩

theorem multiply_low (x y : Word) : ∃ k : Int, ((LLVM.unsignedMultiply x y).1.toNat : Int) = x.toNat * y.toInt + 2 ^ 64 * k := by
  have h := llvm_unsigned_multiply_exact x y
  unfold uval at h
  obtain ⟨k, hk⟩ := toNat_mod y
  refine ⟨x.toNat * k - (LLVM.unsignedMultiply x y).2.toNat, ?_⟩
  have h' : ((LLVM.unsignedMultiply x y).1.toNat : Int) + 2 ^ 64 * (LLVM.unsignedMultiply x y).2.toNat = x.toNat * y.toNat := by exact_mod_cast h
  rw [hk] at h'
  linarith

theorem multiply_low' (x y : Word) : ∃ k : Int, ((LLVM.unsignedMultiply x y).1.toNat : Int) = x.toInt * y.toNat + 2 ^ 64 * k := by
  have h := llvm_unsigned_multiply_exact x y
  unfold uval at h
  obtain ⟨k, hk⟩ := toNat_mod x
  refine ⟨y.toNat * k - (LLVM.unsignedMultiply x y).2.toNat, ?_⟩
  have h' : ((LLVM.unsignedMultiply x y).1.toNat : Int) + 2 ^ 64 * (LLVM.unsignedMultiply x y).2.toNat = x.toNat * y.toNat := by exact_mod_cast h
  rw [hk] at h'
  linarith

theorem timesWords_eq (xl xh yl yh : Word) :
    sval (timesWords xl xh yl yh).1 (timesWords xl xh yl yh).2 = wrap (sval xl xh * sval yl yh) := by
  have h := llvm_unsigned_multiply_exact xl yl
  unfold uval at h
  have h' : ((LLVM.unsignedMultiply xl yl).1.toNat : Int) + 2 ^ 64 * (LLVM.unsignedMultiply xl yl).2.toNat = xl.toNat * yl.toNat := by exact_mod_cast h
  obtain ⟨k1, hk1⟩ := multiply_low xl yh
  obtain ⟨k2, hk2⟩ := multiply_low' xh yl
  obtain ⟨k3, hk3⟩ := addCarry_mod (LLVM.unsignedMultiply xl yh).1 (LLVM.unsignedMultiply xh yl).1
  obtain ⟨k4, hk4⟩ := toNat_mod (addCarry (LLVM.unsignedMultiply xl yh).1 (LLVM.unsignedMultiply xh yl).1).1
  obtain ⟨k5, hk5⟩ := addCarry_mod (LLVM.unsignedMultiply xl yl).2 (addCarry (LLVM.unsignedMultiply xl yh).1 (LLVM.unsignedMultiply xh yl).1).1
  apply eq_wrap (sval_in128 _ _) (k := k1 + k2 + k3 + k4 + k5 - xh.toInt * yh.toInt)
  unfold timesWords
  dsimp only
  conv_lhs => unfold sval
  rw [hk5, hk4, hk3, hk1, hk2]
  unfold sval
  generalize ((LLVM.unsignedMultiply xl yl).1.toNat : Int) = p, ((LLVM.unsignedMultiply xl yl).2.toNat : Int) = q, (xl.toNat : Int) = a, (yl.toNat : Int) = b, xh.toInt = c, yh.toInt = d at *
  ring_nf at h' ⊢
  linarith

theorem times_words {a b : Int} (ha : In128 a) (hb : In128 b) (hn : ¬ (InRange a ∧ InRange b)) :
    times (big a) (big b) = if decide (wrap (a * b) < 0) ≠ (decide (a < 0) != decide (b < 0)) then .overflow else .ok (big (wrap (a * b))) := by
  have key : times (big a) (big b) = (interpret (timesWords (lowOf a) (highOf a) (lowOf b) (highOf b)).1 (timesWords (lowOf a) (highOf a) (lowOf b) (highOf b)).2).bind
      fun result => if result.isNegative ≠ ((big a).isNegative != (big b).isNegative) then .overflow else .ok result := by
    rw [← low_big ha, ← high_big ha, ← low_big hb, ← high_big hb]
    by_cases h1 : InRange a
    · have h2 : ¬ InRange b := fun h => hn ⟨h1, h⟩
      rw [big_small h1, big_double h2]; rfl
    · rw [big_double h1]
      by_cases h2 : InRange b
      · rw [big_small h2]; rfl
      · rw [big_double h2]; rfl
  rw [key, interpret_of (timesWords_eq _ _ _ _), sval_of ha, sval_of hb]
  show (if (big (wrap (a * b))).isNegative ≠ _ then _ else _) = _
  rw [isNegative_big (wrap_in128 _), isNegative_big ha, isNegative_big hb]

theorem times_small {a b : Int} (ha : InRange a) (hb : InRange b) : times (big a) (big b) = .ok (big (a * b)) := by
  rw [big_small ha, big_small hb]
  unfold times LLVM.multiplyLowWithOverflow
  dsimp only
  rw [toInt_strip_tag ha, toInt_untag_tag hb, show 4 * a * b = 4 * (a * b) by ring]
  by_cases hr : InRange (a * b)
  · have hw := (inWord4_iff _).2 hr
    rw [if_neg (by simpa using hw), big_small hr, insert_eq_tag hr]
    rw [toInt_mul] <;> rw [toInt_strip_tag ha, toInt_untag_tag hb, show 4 * a * b = 4 * (a * b) by ring]
    exact hw
  · have hw := fun h => hr ((inWord4_iff _).1 h)
    rw [if_pos (by simpa using hw)]
    have h := (llvm_multiply_exact (untag (tag a)) (untag (tag b))).1
    rw [toInt_untag_tag ha, toInt_untag_tag hb] at h
    rw [double_of h hr]

theorem big_injective {a b : Int} (ha : In128 a) (hb : In128 b) (h : big a = big b) : a = b := by
  rw [← sval_big ha, ← sval_big hb, h]

theorem equal_eq {a b : Int} (ha : In128 a) (hb : In128 b) : equal (big a) (big b) = decide (a = b) := by
  by_cases h1 : InRange a <;> by_cases h2 : InRange b
  · rw [big_small h1, big_small h2]; exact eqI_tag h1 h2
  · rw [big_small h1, big_double h2]
    have : a ≠ b := fun e => h2 (e ▸ h1)
    simp [equal, this]
  · rw [big_double h1, big_small h2]
    have : a ≠ b := fun e => h1 (e ▸ h2)
    simp [equal, this]
  · rw [big_double h1, big_double h2, Bool.eq_iff_iff]
    show (lowOf a == lowOf b && highOf a == highOf b) = true ↔ _
    rw [Bool.and_eq_true, beq_iff_eq, beq_iff_eq, decide_eq_true_eq]
    constructor
    · rintro ⟨h3, h4⟩
      rw [← sval_of ha, ← sval_of hb, h3, h4]
    · intro h; subst h; exact ⟨rfl, rfl⟩

theorem less_eq {a b : Int} (ha : In128 a) (hb : In128 b) : less (big a) (big b) = decide (a < b) := by
  by_cases h1 : InRange a <;> by_cases h2 : InRange b
  · rw [big_small h1, big_small h2]; exact ltI_tag h1 h2
  · have e : less (big a) (big b) = (big b).isPositive := by rw [big_small h1, big_double h2]; rfl
    rw [e, isPositive_big hb]
    obtain ⟨a1, a2⟩ := h1
    simp only [InRange] at h2
    congr 1
    apply propext; omega
  · have e : less (big a) (big b) = (big a).isNegative := by rw [big_double h1, big_small h2]; rfl
    rw [e, isNegative_big ha]
    obtain ⟨a1, a2⟩ := h2
    simp only [InRange] at h1
    congr 1
    apply propext; omega
  · rw [big_double h1, big_double h2, Bool.eq_iff_iff]
    show ((highOf a).slt (highOf b) || (highOf a == highOf b && (lowOf a).ult (lowOf b))) = true ↔ _
    rw [Bool.or_eq_true, Bool.and_eq_true, beq_iff_eq, decide_eq_true_eq, ← BitVec.toInt_inj]
    have e1 : ((highOf a).slt (highOf b) = true) ↔ (highOf a).toInt < (highOf b).toInt := by simp [BitVec.slt]
    have e2 : ((lowOf a).ult (lowOf b) = true) ↔ ((lowOf a).toNat : Int) < (lowOf b).toNat := by simp [BitVec.ult]
    rw [e1, e2, toInt_highOf ha, toInt_highOf hb, toNat_lowOf, toNat_lowOf]
    omega

theorem isOdd_eq {a : Int} (ha : In128 a) : (big a).isOdd = decide (a % 2 = 1) := by
  by_cases h1 : InRange a
  · rw [big_small h1]
    show (untag (tag a)).getLsbD 0 = _
    rw [getLsbD_bit _ (by omega), toInt_untag_tag h1]
    simp [bit]
  · rw [big_double h1]
    show (lowOf a).getLsbD 0 = _
    have h : (lowOf a).getLsbD 0 = (lowOf a).toNat.testBit 0 := rfl
    rw [h, Nat.testBit_zero]
    have := toNat_lowOf a
    congr 1
    apply propext; omega

end Verif.BigInt
