import Verif.MachineWord.Lemmas
/-
Properties C20 and C36–C39: the double-width and flag-returning machine-word
primitives of the C run-time (`C.…`) and of the LLVM back end (`LLVM.…`).
-/
namespace Verif.MachineWord
open Verif.Integer
open C (Abstract)

/-! ## C20: the C run-time -/

/-- The carry that the C multiplication loses: whether the three contributions
to the second half-word exceed a half-word. -/
def MiddleCarry (x y : Nat) : Prop :=
  2 ^ 32 ≤ (x % 2 ^ 32) * (y % 2 ^ 32) / 2 ^ 32 + (x % 2 ^ 32) * (y / 2 ^ 32) % 2 ^ 32 +
    (x / 2 ^ 32) * (y % 2 ^ 32) % 2 ^ 32

/-- C20, multiplication: the low word is always right; the high word of the
unsigned product is right exactly when no carry is lost.  Missing: the operands
with a lost carry, where the high word is wrong. -/
theorem c_multiply_partial (x y : Word) :
    (C.multiplyDouble x y).1.toNat = x.toNat * y.toNat % 2 ^ 64 ∧
    (uval (C.multiplyDouble x y).1 (C.multiplyDouble x y).2 = x.toNat * y.toNat ↔
      ¬ MiddleCarry x.toNat y.toNat) := by
  obtain ⟨h1, h2⟩ := multiplyDouble_value x y
  refine ⟨h1, ?_⟩
  unfold uval MiddleCarry
  rw [h1]
  generalize x.toNat * y.toNat = P at *
  generalize (C.multiplyDouble x y).2.toNat = H at *
  generalize (x.toNat % 2 ^ 32) * (y.toNat % 2 ^ 32) / 2 ^ 32 +
        (x.toNat % 2 ^ 32) * (y.toNat / 2 ^ 32) % 2 ^ 32 +
        (x.toNat / 2 ^ 32) * (y.toNat % 2 ^ 32) % 2 ^ 32 = M at *
  omega

/-- C20 fails: a lost carry, and the signed `multiply-high` of a negative word
is the unsigned one. -/
theorem c_multiply_violated :
    (C.multiplyDouble (BitVec.ofNat 64 (2 ^ 64 - 1)) (BitVec.ofNat 64 (2 ^ 64 - 1))).2.toNat ≠
      (2 ^ 64 - 1) * (2 ^ 64 - 1) / 2 ^ 64 ∧
    sval (C.multiplyDouble (-1) 1).1 (C.multiplyDouble (-1) 1).2 ≠ (-1) * 1 := by decide

/-- C20 fails for division: only the low halves of the dividend's words are
used. -/
theorem c_divide_violated :
    C.unsignedDivide (BitVec.ofNat 64 (2 ^ 32)) 1 = .ok (0, 0) ∧
    C.divideDouble (BitVec.ofNat 64 (2 ^ 32)) 0 1 = .ok (0, 0) ∧
    C.unsignedDivideDouble 0 1 2 = .ok (BitVec.ofNat 64 (2 ^ 31), 0) := by decide

/-- C20, unsigned division of a single word.  Missing: dividends whose high half
is neither zero nor all ones (`c_divide_violated`). -/
theorem c_unsigned_divide_partial {x y : Word} (hy : y ≠ 0)
    (hx : x.toNat < 2 ^ 32 ∨ 2 ^ 64 - 2 ^ 32 ≤ x.toNat) :
    ∃ q r, C.unsignedDivide x y = .ok (q, r) ∧ q.toNat = x.toNat / y.toNat ∧
      r.toNat = x.toNat % y.toNat := by
  have hlt := x.isLt
  have hdiv : (C.lohalf (if x.slt 0 then -1 else 0) <<< 32) + C.lohalf x = x := by
    apply BitVec.eq_of_toNat_eq
    rw [BitVec.toNat_add, toNat_lohalf, BitVec.toNat_shiftLeft, toNat_lohalf, slt_zero,
      BitVec.toInt_eq_toNat_cond, Nat.shiftLeft_eq]
    have h1 : (-1 : Word).toNat = 2 ^ 64 - 1 := by decide
    have h0 : (0 : Word).toNat = 0 := rfl
    split_ifs with a b b
    · simp only [decide_eq_true_eq] at b; omega
    · rw [h0]; omega
    · rw [h1]; omega
    · simp only [decide_eq_true_eq] at b; omega
  rw [C.unsignedDivide, C.unsignedDivideDouble, hdiv]
  simp only [if_neg hy]
  exact ⟨_, _, rfl, BitVec.toNat_udiv, BitVec.toNat_umod⟩

/-- Concrete case: the largest word divided by 10. -/
example : C.unsignedDivide (-1) 10 = .ok (BitVec.ofNat 64 1844674407370955161, 5) := by decide

/-- C20 fails for the flag of `multiply-low-with-overflow`: a product with zero
is reported as an overflow, and a real overflow is undefined behaviour. -/
theorem c_multiply_flag_violated :
    C.multiplyLowWithOverflow 5 0 = .ok (0, true) ∧
    (∀ x y : Word, ¬ InWord (x.toInt * y.toInt) → C.multiplyLowWithOverflow x y = .poison) := by
  refine ⟨by decide, fun x y h => ?_⟩
  rw [C.multiplyLowWithOverflow, if_neg h]

/-- C20 fails for the flag of the double-width `multiply-with-overflow`: the
product 0 of a negative number and 0 is reported as an overflow although a
double word always holds the product. -/
theorem c_multiply_with_overflow_violated :
    C.multiplyWithOverflow (-1) 0 = (0, 0, true) := by decide

/-! ## C36: the LLVM back end's double-width multiplication and division -/

/-- C36: the two words of the signed product are exact. -/
theorem llvm_multiply_exact (x y : Word) :
    sval (LLVM.multiplyLowHigh x y).1 (LLVM.multiplyLowHigh x y).2 = x.toInt * y.toInt ∧
    LLVM.multiplyHigh x y = (LLVM.multiplyLowHigh x y).2 := by
  constructor
  · rw [LLVM.multiplyLowHigh, sval_split, toInt_sext_mul]
  · apply BitVec.eq_of_toInt_eq
    unfold LLVM.multiplyHigh LLVM.multiplyLowHigh
    have e := toInt_sext_mul x y
    obtain ⟨a, b⟩ := inWord_toInt x
    obtain ⟨c, d⟩ := inWord_toInt y
    have h1 : x.toInt * y.toInt ≤ 2 ^ 63 * 2 ^ 63 := by nlinarith
    have h2 : -(2 ^ 63 * 2 ^ 63) ≤ x.toInt * y.toInt := by nlinarith
    rw [← e] at h1 h2
    generalize x.signExtend 128 * y.signExtend 128 = f at *
    have hs : (f.sshiftRight 64).toInt = f.toInt / 2 ^ 64 := by
      rw [BitVec.toInt_sshiftRight, Int.shiftRight_eq_div_pow]; norm_num
    rw [toInt_trunc_of_inWord (by rw [hs]; constructor <;> omega), hs]
    have h3 := sval_split f
    unfold sval at h3
    have := (LLVM.split f).1.isLt
    omega

/-- C36: the two words of the unsigned product are exact. -/
theorem llvm_unsigned_multiply_exact (x y : Word) :
    uval (LLVM.unsignedMultiply x y).1 (LLVM.unsignedMultiply x y).2 = x.toNat * y.toNat := by
  rw [LLVM.unsignedMultiply, uval_split, BitVec.toNat_mul, BitVec.zeroExtend_eq_setWidth,
    BitVec.zeroExtend_eq_setWidth, BitVec.toNat_setWidth, BitVec.toNat_setWidth]
  have hx := x.isLt
  have hy := y.isLt
  rw [Nat.mod_eq_of_lt (a := x.toNat) (by omega), Nat.mod_eq_of_lt (a := y.toNat) (by omega)]
  apply Nat.mod_eq_of_lt
  calc x.toNat * y.toNat < 2 ^ 64 * 2 ^ 64 := Nat.mul_lt_mul'' hx hy
    _ = 2 ^ 128 := by norm_num

/-- C36: truncating division of a double word, whenever the quotient fits in a
word. -/
theorem llvm_double_truncate_exact {l h y : Word} {q : Int} (hy : y ≠ 0)
    (hq : IsTruncate (sval l h) y.toInt q) (hw : InWord q) :
    ∃ qw rw, LLVM.doubleDivide l h y = .ok (qw, rw) ∧ qw.toInt = q ∧
      rw.toInt = sval l h - q * y.toInt := by
  have hY := toInt_ne_zero hy
  have e : q = (sval l h).tdiv y.toInt := by
    have h2 := truncate_unique (sval l h) y.toInt hY
    unfold IsTruncate at hq h2
    rw [hq, ← h2]
  subst e
  obtain ⟨a, b, e1, e2, e3⟩ := doubleDivide_spec hy hw
  refine ⟨a, b, e1, e2, ?_⟩
  have := (tmod_bounds (sval l h) y.toInt hY).1
  omega

/-- C36: flooring division of a double word, whenever the quotient fits in a
word (and so does the truncated one). -/
theorem llvm_double_floor_exact {l h y : Word} (hy : y ≠ 0)
    (ht : InWord ((sval l h).tdiv y.toInt)) (hw : InWord ⌊(sval l h : ℚ) / y.toInt⌋) :
    ∃ qw rw, LLVM.doubleFloor l h y = .ok (qw, rw) ∧ qw.toInt = ⌊(sval l h : ℚ) / y.toInt⌋ ∧
      rw.toInt = sval l h - ⌊(sval l h : ℚ) / y.toInt⌋ * y.toInt := by
  have hY := toInt_ne_zero hy
  obtain ⟨a, b, e1, e2, e3⟩ := doubleDivide_spec hy ht
  obtain ⟨f1, f2, f3⟩ := tmod_bounds (sval l h) y.toInt hY
  obtain ⟨q, m, e, h1, h2⟩ := floorAdjust_spec (d := a) (r := b) hy (by rw [e2, e3]; exact f1)
    (by rw [e3]; exact f2) (by rw [e3]; exact f3) hw
  exact ⟨q, m, by rw [LLVM.doubleFloor, e1, bind_ok]; exact e, h1, h2⟩

/-- C36: ceiling division of a double word. -/
theorem llvm_double_ceiling_exact {l h y : Word} (hy : y ≠ 0)
    (ht : InWord ((sval l h).tdiv y.toInt)) (hw : InWord ⌈(sval l h : ℚ) / y.toInt⌉) :
    ∃ qw rw, LLVM.doubleCeiling l h y = .ok (qw, rw) ∧ qw.toInt = ⌈(sval l h : ℚ) / y.toInt⌉ ∧
      rw.toInt = sval l h - ⌈(sval l h : ℚ) / y.toInt⌉ * y.toInt := by
  have hY := toInt_ne_zero hy
  obtain ⟨a, b, e1, e2, e3⟩ := doubleDivide_spec hy ht
  obtain ⟨f1, f2, f3⟩ := tmod_bounds (sval l h) y.toInt hY
  obtain ⟨q, m, e, h1, h2⟩ := ceilingAdjust_spec (d := a) (r := b) hy (by rw [e2, e3]; exact f1)
    (by rw [e3]; exact f2) (by rw [e3]; exact f3) hw
  exact ⟨q, m, by rw [LLVM.doubleCeiling, e1, bind_ok]; exact e, h1, h2⟩

/-- C36: unsigned division of a double word, whenever the quotient fits. -/
theorem llvm_unsigned_double_divide_exact {l h y : Word} (hy : y ≠ 0)
    (hw : uval l h / y.toNat < 2 ^ 64) :
    ∃ qw rw, LLVM.unsignedDoubleDivide l h y = .ok (qw, rw) ∧ qw.toNat = uval l h / y.toNat ∧
      rw.toNat = uval l h % y.toNat := by
  have hylt := y.isLt
  have ey : (y.zeroExtend 128).toNat = y.toNat := by
    rw [BitVec.zeroExtend_eq_setWidth, BitVec.toNat_setWidth, Nat.mod_eq_of_lt (by omega)]
  have hy0 : y.toNat ≠ 0 := fun h0 => hy (BitVec.eq_of_toNat_eq h0)
  have hz : ¬ (y.zeroExtend 128 = (0 : Double)) := by
    intro h0
    have := congrArg BitVec.toNat h0
    rw [ey] at this
    exact hy0 this
  rw [LLVM.unsignedDoubleDivide]
  simp only [if_neg hz]
  refine ⟨_, _, rfl, ?_, ?_⟩
  · rw [toNat_trunc_of_lt] <;> rw [BitVec.toNat_udiv, toNat_merge, ey]
    exact hw
  · have := Nat.mod_lt (uval l h) (Nat.pos_of_ne_zero hy0)
    rw [toNat_trunc_of_lt] <;> rw [BitVec.toNat_umod, toNat_merge, ey]
    omega

/-- Concrete cases: `-2^64 / 3` rounded down, and `2^65 / 4`. -/
example : LLVM.doubleFloor 0 (-1) 3 = .ok (BitVec.ofInt 64 (-6148914691236517206), 2) := by decide
example : LLVM.unsignedDoubleDivide 0 2 4 = .ok (BitVec.ofNat 64 (2 ^ 63), 0) := by decide

/-- A quotient that does not fit is silently truncated to its low word. -/
theorem llvm_double_divide_truncates :
    LLVM.doubleDivide 0 1 1 = .ok (0, 0) ∧ sval 0 1 = 2 ^ 64 := by decide

/-! ## C37: overflow, carry and borrow flags -/

/-- C37: `add-with-overflow` of the C run-time. -/
theorem c_add_flag_exact (x y : Word) :
    (C.addWithOverflow x y).1 = x + y ∧
    ((C.addWithOverflow x y).2 = true ↔ ¬ InWord (x.toInt + y.toInt)) := by
  refine ⟨rfl, ?_⟩
  unfold C.addWithOverflow
  simp only [slt_xor]
  obtain ⟨a, b⟩ := inWord_toInt x
  obtain ⟨c, d⟩ := inWord_toInt y
  have e : (x + y).toInt = (x.toInt + y.toInt).bmod (2 ^ 64) := BitVec.toInt_add x y
  have e2 := Int.bmod_add_bdiv (x.toInt + y.toInt) (2 ^ 64)
  rw [← e] at e2
  obtain ⟨f, g⟩ := inWord_toInt (x + y)
  generalize (x + y).toInt = s at *
  generalize (x.toInt + y.toInt).bdiv (2 ^ 64) = k at *
  unfold InWord
  by_cases h1 : x.toInt < 0 <;> by_cases h2 : y.toInt < 0 <;> by_cases h3 : s < 0 <;>
    simp [h1, h2, h3] <;> omega

/-- C37: `subtract-with-overflow` of the C run-time. -/
theorem c_subtract_flag_exact (x y : Word) :
    (C.subtractWithOverflow x y).1 = x - y ∧
    ((C.subtractWithOverflow x y).2 = true ↔ ¬ InWord (x.toInt - y.toInt)) := by
  refine ⟨rfl, ?_⟩
  unfold C.subtractWithOverflow
  simp only [slt_xor]
  obtain ⟨a, b⟩ := inWord_toInt x
  obtain ⟨c, d⟩ := inWord_toInt y
  have e : (x - y).toInt = (x.toInt - y.toInt).bmod (2 ^ 64) := BitVec.toInt_sub
  have e2 := Int.bmod_add_bdiv (x.toInt - y.toInt) (2 ^ 64)
  rw [← e] at e2
  obtain ⟨f, g⟩ := inWord_toInt (x - y)
  generalize (x - y).toInt = s at *
  generalize (x.toInt - y.toInt).bdiv (2 ^ 64) = k at *
  unfold InWord
  by_cases h1 : x.toInt < 0 <;> by_cases h2 : y.toInt < 0 <;> by_cases h3 : s < 0 <;>
    simp [h1, h2, h3] <;> omega

/-- C37: unsigned addition with carry of the C run-time: sum word and carry
together are the exact sum. -/
theorem c_carry_exact (x y : Word) :
    uval (C.unsignedAddWithCarry x y).1 (C.unsignedAddWithCarry x y).2 = x.toNat + y.toNat := by
  have hx := x.isLt
  have hy := y.isLt
  unfold C.unsignedAddWithCarry uval
  have hbit : ∀ z : Word, (z &&& 1 ≠ 0) ↔ z.toNat % 2 = 1 := by
    intro z
    rw [ne_eq, ← BitVec.toNat_inj, BitVec.toNat_and]
    have : (1 : Word).toNat = 1 := rfl
    rw [this, Nat.and_one_is_mod]
    simp
  simp only [hbit, slt_zero, BitVec.toNat_add, decide_eq_true_eq, BitVec.toInt_eq_toNat_cond]
  simp only [BitVec.toNat_ushiftRight, Nat.shiftRight_eq_div_pow]
  have h1 : (1 : Word).toNat = 1 := rfl
  have h0 : (0 : Word).toNat = 0 := rfl
  split_ifs <;> simp only [h1, h0] at * <;> omega

/-- C37: unsigned subtraction with borrow of the C run-time. -/
theorem c_borrow_exact (x y : Word) :
    ((C.unsignedSubtractWithBorrow x y).1.toNat : Int) -
      2 ^ 64 * (C.unsignedSubtractWithBorrow x y).2.toNat = x.toNat - y.toNat := by
  have hx := x.isLt
  have hy := y.isLt
  unfold C.unsignedSubtractWithBorrow
  simp only [BitVec.toNat_sub, BitVec.ult, decide_eq_true_eq]
  have h1 : (1 : Word).toNat = 1 := rfl
  have h0 : (0 : Word).toNat = 0 := rfl
  split_ifs <;> simp only [h1, h0] at * <;> omega

/-- C37: negation and absolute value in the C run-time.  Missing: the most
negative word, where the overflow that the flag should report is itself
undefined behaviour (`c_negate_flag_violated`). -/
theorem c_negate_flag_partial {x : Word} (hx : x.toInt ≠ -2 ^ 63) :
    C.negativeWithOverflow x = .ok (-x, false) ∧
    C.absWithOverflow x = .ok (if x.toInt < 0 then -x else x, false) := by
  obtain ⟨a, b⟩ := inWord_toInt x
  have hw : InWord (-x.toInt) := by constructor <;> omega
  have hn : (-x).toInt = -x.toInt := by rw [BitVec.toInt_neg]; exact bmod_word hw
  have hs : subNsw 0 x = .ok (-x) := by
    rw [subNsw, toInt_zero', if_pos (by simpa using hw)]
    congr 1
  refine ⟨?_, ?_⟩
  · rw [C.negativeWithOverflow, hs, bind_ok, slt_zero, zero_slt, hn]
    by_cases h : x.toInt < 0 <;> simp [h]
  · rw [C.absWithOverflow, C.labs, slt_zero]
    by_cases h : x.toInt < 0
    · simp only [h, decide_true, if_true]
      rw [hs, bind_ok, zero_slt, hn]
      simp [h]
    · simp only [h, decide_false, if_false]
      simp

theorem c_negate_flag_violated :
    C.negativeWithOverflow (BitVec.intMin 64) = .poison ∧
    C.absWithOverflow (BitVec.intMin 64) = .poison := by decide

/-- C37 fails for `shift-left-with-overflow` in both back ends: the flag is
never true for a shift count below the word size. -/
theorem shift_left_flag_violated (x s : Word) (hs : s.toNat < 64) :
    (∀ r f, C.shiftLeftWithOverflow x s = .ok (r, f) → f = false) ∧
    ∃ l h, LLVM.shiftLeftWithOverflow x s = .ok (l, h, false) := by
  constructor
  · intro r f h
    unfold C.shiftLeftWithOverflow at h
    split_ifs at h
    simp only [Out.ok.injEq, Prod.mk.injEq] at h
    exact h.2.symm
  · have es : (s.signExtend 128).toNat = s.toNat := by
      have h1 : (s.signExtend 128).toInt = s.toInt := BitVec.toInt_signExtend_of_le (by norm_num)
      rw [BitVec.toInt_eq_toNat_cond, BitVec.toInt_eq_toNat_cond] at h1
      have := (s.signExtend 128).isLt
      split_ifs at h1 <;> omega
    have hx := x.isLt
    have hcmp : (x.zeroExtend 128 <<< s.toNat) >>> s.toNat = x.zeroExtend 128 := by
      apply BitVec.eq_of_toNat_eq
      rw [BitVec.toNat_ushiftRight, BitVec.toNat_shiftLeft, BitVec.zeroExtend_eq_setWidth,
        BitVec.toNat_setWidth, Nat.mod_eq_of_lt (a := x.toNat) (by omega), Nat.shiftLeft_eq,
        Nat.mod_eq_of_lt, Nat.shiftRight_eq_div_pow, Nat.mul_div_cancel _ (by positivity)]
      calc x.toNat * 2 ^ s.toNat < 2 ^ 64 * 2 ^ 64 :=
            Nat.mul_lt_mul'' hx (Nat.pow_lt_pow_right (by norm_num) hs)
        _ = 2 ^ 128 := by norm_num
    rw [LLVM.shiftLeftWithOverflow, LLVM.shl128, es, if_pos (by omega), bind_ok, LLVM.lshr128, es,
      if_pos (by omega), bind_ok, hcmp]
    exact ⟨_, _, by rw [bne_self_eq_false]⟩

/-- For instance `2^62` shifted left by two loses its only bit unreported by
the word it is stored in. -/
example : LLVM.shiftLeftWithOverflow (BitVec.ofNat 64 (2 ^ 62)) 2 = .ok (0, 1, false) := by decide

/-! ## C38: rotation and double-width shifts -/

theorem sub64 {s : Word} (h : s.toNat ≤ 64) : (64 - s).toNat = 64 - s.toNat := by
  rw [BitVec.toNat_sub]
  have : (64 : Word).toNat = 64 := rfl
  have := s.isLt
  omega

/-- C38: both back ends rotate correctly for counts from 1 to 63.  Missing: the
count 0 (`rotate_violated`). -/
theorem rotate_exact_partial (x s : Word) (h0 : 0 < s.toNat) (h1 : s.toNat < 64) :
    C.rotateLeft x s = .ok (x.rotateLeft s.toNat) ∧
    C.rotateRight x s = .ok (x.rotateRight s.toNat) ∧
    LLVM.rotateLeft x s = .ok (x.rotateLeft s.toNat) ∧
    LLVM.rotateRight x s = .ok (x.rotateRight s.toNat) := by
  have e := sub64 (s := s) (by omega)
  have hl : x.rotateLeft s.toNat = x <<< s.toNat ||| x >>> (64 - s.toNat) := by
    rw [BitVec.rotateLeft_eq_rotateLeftAux_of_lt h1]; rfl
  have hr : x.rotateRight s.toNat = x >>> s.toNat ||| x <<< (64 - s.toNat) := by
    rw [BitVec.rotateRight_eq_rotateRightAux_of_lt h1]; rfl
  refine ⟨?_, ?_, ?_, ?_⟩
  · rw [C.rotateLeft, C.ushr, e, if_pos (by omega), bind_ok, C.ushl, if_pos h1, bind_ok, hl,
      BitVec.or_comm]
  · rw [C.rotateRight, C.ushl, e, if_pos (by omega), bind_ok, C.ushr, if_pos h1, bind_ok, hr]
  · rw [LLVM.rotateLeft, C.ushl, if_pos h1, bind_ok, C.ushr, e, if_pos (by omega), bind_ok, hl,
      BitVec.or_comm]
  · rw [LLVM.rotateRight, C.ushr, if_pos h1, bind_ok, C.ushl, e, if_pos (by omega), bind_ok, hr,
      BitVec.or_comm]

/-- C38 fails for a count of zero, in both back ends. -/
theorem rotate_violated (x : Word) :
    C.rotateLeft x 0 = .poison ∧ C.rotateRight x 0 = .poison ∧
    LLVM.rotateLeft x 0 = .poison ∧ LLVM.rotateRight x 0 = .poison :=
  ⟨rfl, rfl, rfl, rfl⟩

/-- C38: double-width shifts of the LLVM back end, for every count below 128. -/
theorem llvm_double_shift_exact (l h s : Word) (hs : s.toNat < 128) :
    (∃ l' h', LLVM.doubleShiftLeft l h s = .ok (l', h') ∧
      uval l' h' = uval l h * 2 ^ s.toNat % 2 ^ 128) ∧
    (∃ l' h', LLVM.doubleShiftRight l h s = .ok (l', h') ∧
      uval l' h' = uval l h / 2 ^ s.toNat) := by
  have es : (s.signExtend 128).toNat = s.toNat := by
    have h1 : (s.signExtend 128).toInt = s.toInt := BitVec.toInt_signExtend_of_le (by norm_num)
    rw [BitVec.toInt_eq_toNat_cond, BitVec.toInt_eq_toNat_cond] at h1
    have := (s.signExtend 128).isLt
    split_ifs at h1 <;> omega
  constructor
  · rw [LLVM.doubleShiftLeft, LLVM.shl128, es, if_pos hs, bind_ok]
    refine ⟨(LLVM.split _).1, (LLVM.split _).2, rfl, ?_⟩
    rw [uval_split, BitVec.toNat_shiftLeft, toNat_merge, Nat.shiftLeft_eq]
  · rw [LLVM.doubleShiftRight, LLVM.lshr128, es, if_pos hs, bind_ok]
    refine ⟨(LLVM.split _).1, (LLVM.split _).2, rfl, ?_⟩
    rw [uval_split, BitVec.toNat_ushiftRight, toNat_merge, Nat.shiftRight_eq_div_pow]

/-- C38: double-width shifts of the C run-time, for counts from 1 to 63.
Missing: the count 0, which is undefined (`c_double_shift_violated`). -/
theorem c_double_shift_partial (l h s : Word) (h0 : 0 < s.toNat) (h1 : s.toNat < 64) :
    (∃ l' h', C.doubleShiftLeft l h s = .ok (l', h') ∧
      uval l' h' = uval l h * 2 ^ s.toNat % 2 ^ 128) ∧
    (∃ l' h', C.doubleShiftRight l h s = .ok (l', h') ∧
      uval l' h' = uval l h / 2 ^ s.toNat) := by
  have e := sub64 (s := s) (by omega)
  have hl := l.isLt
  have hh := h.isLt
  have hPQ : 2 ^ s.toNat * 2 ^ (64 - s.toNat) = 2 ^ 64 := by
    rw [← pow_add]; congr 1; omega
  have hP : 0 < 2 ^ s.toNat := by positivity
  have hQ : 0 < 2 ^ (64 - s.toNat) := by positivity
  constructor
  · rw [C.doubleShiftLeft, C.ushr, e, if_pos (by omega), bind_ok, C.ushl, if_pos h1, bind_ok,
      C.ushl, if_pos h1, bind_ok]
    refine ⟨_, _, rfl, ?_⟩
    unfold uval
    have hc : l.toNat / 2 ^ (64 - s.toNat) < 2 ^ s.toNat := by
      rw [Nat.div_lt_iff_lt_mul hQ, hPQ]; exact hl
    have hhi : (h <<< s.toNat).toNat = (h.toNat % 2 ^ (64 - s.toNat)) <<< s.toNat := by
      rw [BitVec.toNat_shiftLeft, Nat.shiftLeft_eq, Nat.shiftLeft_eq, ← hPQ, mul_comm h.toNat,
        Nat.mul_mod_mul_left, mul_comm]
    rw [BitVec.toNat_or, BitVec.toNat_ushiftRight, Nat.shiftRight_eq_div_pow, hhi, Nat.or_comm,
      ← Nat.shiftLeft_add_eq_or_of_lt hc, Nat.shiftLeft_eq, BitVec.toNat_shiftLeft, Nat.shiftLeft_eq]
    have d1 : l.toNat * 2 ^ s.toNat % 2 ^ 64 = l.toNat % 2 ^ (64 - s.toNat) * 2 ^ s.toNat := by
      rw [← hPQ, mul_comm l.toNat, Nat.mul_mod_mul_left, mul_comm]
    have d2 : l.toNat * 2 ^ s.toNat =
        l.toNat % 2 ^ (64 - s.toNat) * 2 ^ s.toNat + 2 ^ 64 * (l.toNat / 2 ^ (64 - s.toNat)) := by
      conv_lhs => rw [← Nat.mod_add_div l.toNat (2 ^ (64 - s.toNat))]
      rw [← hPQ]; ring
    have d3 : h.toNat * 2 ^ s.toNat =
        h.toNat % 2 ^ (64 - s.toNat) * 2 ^ s.toNat + 2 ^ 64 * (h.toNat / 2 ^ (64 - s.toNat)) := by
      conv_lhs => rw [← Nat.mod_add_div h.toNat (2 ^ (64 - s.toNat))]
      rw [← hPQ]; ring
    have hb : h.toNat % 2 ^ (64 - s.toNat) * 2 ^ s.toNat ≤ 2 ^ 64 - 2 ^ s.toNat := by
      have : h.toNat % 2 ^ (64 - s.toNat) ≤ 2 ^ (64 - s.toNat) - 1 := by
        have := Nat.mod_lt h.toNat hQ; omega
      calc _ ≤ (2 ^ (64 - s.toNat) - 1) * 2 ^ s.toNat := Nat.mul_le_mul_right _ this
        _ = 2 ^ 64 - 2 ^ s.toNat := by rw [Nat.sub_mul, one_mul, mul_comm, hPQ]
    have hPle : 2 ^ s.toNat ≤ 2 ^ 64 := Nat.pow_le_pow_right (by norm_num) (by omega)
    have hd1lt : l.toNat * 2 ^ s.toNat % 2 ^ 64 < 2 ^ 64 := Nat.mod_lt _ (by positivity)
    rw [add_mul, mul_assoc, d3]
    rw [d1] at hd1lt
    rw [d1, d2]
    generalize l.toNat % 2 ^ (64 - s.toNat) * 2 ^ s.toNat = A at *
    generalize h.toNat % 2 ^ (64 - s.toNat) * 2 ^ s.toNat = B at *
    generalize l.toNat / 2 ^ (64 - s.toNat) = c at *
    generalize h.toNat / 2 ^ (64 - s.toNat) = a at *
    generalize 2 ^ s.toNat = P at *
    omega
  · rw [C.doubleShiftRight, C.ushr, if_pos h1, bind_ok, C.ushl, e, if_pos (by omega), bind_ok,
      C.ushr, if_pos h1, bind_ok]
    refine ⟨_, _, rfl, ?_⟩
    unfold uval
    have hc : l.toNat / 2 ^ s.toNat < 2 ^ (64 - s.toNat) := by
      rw [Nat.div_lt_iff_lt_mul hP, mul_comm, hPQ]; exact hl
    have hhi : (h <<< (64 - s.toNat)).toNat = (h.toNat % 2 ^ s.toNat) <<< (64 - s.toNat) := by
      rw [BitVec.toNat_shiftLeft, Nat.shiftLeft_eq, Nat.shiftLeft_eq, ← hPQ,
        mul_comm (2 ^ s.toNat), mul_comm h.toNat, Nat.mul_mod_mul_left, mul_comm]
    rw [BitVec.toNat_or, BitVec.toNat_ushiftRight, BitVec.toNat_ushiftRight,
      Nat.shiftRight_eq_div_pow, Nat.shiftRight_eq_div_pow, hhi, Nat.or_comm,
      ← Nat.shiftLeft_add_eq_or_of_lt hc, Nat.shiftLeft_eq]
    have d : (l.toNat + 2 ^ 64 * h.toNat) / 2 ^ s.toNat =
        l.toNat / 2 ^ s.toNat + 2 ^ (64 - s.toNat) * h.toNat := by
      rw [← hPQ, mul_assoc, Nat.add_mul_div_left _ _ hP]
    rw [d]
    have h2 : 2 ^ (64 - s.toNat) * h.toNat =
        h.toNat % 2 ^ s.toNat * 2 ^ (64 - s.toNat) + 2 ^ 64 * (h.toNat / 2 ^ s.toNat) := by
      conv_lhs => rw [← Nat.mod_add_div h.toNat (2 ^ s.toNat)]
      rw [← hPQ]; ring
    rw [h2]; ring

theorem c_double_shift_violated (l h : Word) :
    C.doubleShiftLeft l h 0 = .poison ∧ C.doubleShiftRight l h 0 = .poison := ⟨rfl, rfl⟩

/-- C38: `machine-word-unsigned-shift-left` is the plain left shift.  (This is
the fact that `Verif.Integer.lshLeft` relies on.) -/
theorem llvm_unsigned_shift_left_exact (x s : Word) (hs : s.toNat < 64) :
    LLVM.unsignedShiftLeft x s = .ok (x <<< s.toNat) := by
  obtain ⟨⟨l', h', e, hv⟩, _⟩ := llvm_double_shift_exact 0 x s (by omega)
  rw [LLVM.unsignedShiftLeft, e, bind_ok]
  change Out.ok h' = _
  congr 1
  apply BitVec.eq_of_toNat_eq
  rw [BitVec.toNat_shiftLeft, Nat.shiftLeft_eq]
  unfold uval at hv
  have h0 : (0 : Word).toNat = 0 := rfl
  rw [h0, Nat.zero_add, mul_assoc] at hv
  have := l'.isLt
  have := h'.isLt
  generalize x.toNat * 2 ^ s.toNat = P at *
  omega

example : LLVM.doubleShiftLeft (-1) 0 4 = .ok (BitVec.ofInt 64 (-16), 15) := by decide
example : C.doubleShiftRight 0 5 1 = .ok (BitVec.ofNat 64 (2 ^ 63), 2) := by decide
example : C.rotateLeft (BitVec.intMin 64) 1 = .ok 1 := by decide

/-! ## C39: machine words as abstract integers -/

theorem I_value {x : Word} (h : InRange x.toInt) : (C.I x).toInt / 4 = x.toInt := by
  have e : C.I x = tag x.toInt := by
    have h1 : C.I x = Verif.Integer.insert (x <<< 2) := by
      unfold C.I Verif.Integer.insert
      rw [BitVec.add_eq_or_of_and_eq_zero]
      ext i hi
      rcases i with _ | i
      · simp
      · simp
    rw [h1]
    apply insert_eq_tag h
    rw [toInt_shl]
    have e4 : x.toInt * 2 ^ 2 = 4 * x.toInt := by ring
    rw [e4]; exact bmod_word ((inWord4_iff _).mpr h)
  rw [e, toInt_tag h]
  omega

/-- Masking off the low `k` bits. -/
theorem and_high_mask (x : Word) (k : Nat) :
    x &&& ((-1 : Word) <<< k) = (x >>> k) <<< k := by
  apply BitVec.eq_of_getLsbD_eq
  intro i hi
  have h1 : (-1 : Word) = BitVec.allOnes 64 := by decide
  rw [h1, BitVec.getLsbD_and, BitVec.getLsbD_shiftLeft, BitVec.getLsbD_shiftLeft,
    BitVec.getLsbD_ushiftRight, BitVec.getLsbD_allOnes]
  by_cases hk : i < k
  · simp [hk]
  · have e1 : k + (i - k) = i := by omega
    have e2 : i - k < 64 := by omega
    simp [hk, hi, e1, e2]

/-- C39: `primitive-wrap-abstract-integer` makes an integer with the word's
signed value, a fixed one exactly if it is representable, in both back ends. -/
theorem wrap_abstract_exact (x : Word) :
    aval (C.wrapAbstract x) = x.toInt ∧ aval (LLVM.wrapAbstract x) = x.toInt ∧
    C.wrapAbstract x = LLVM.wrapAbstract x ∧
    ((∃ w, LLVM.wrapAbstract x = .fixed w) ↔ InRange x.toInt) := by
  obtain ⟨a, b⟩ := inWord_toInt x
  have hmax : (BitVec.ofInt 64 (2 ^ 61 - 1) : Word).toInt = 2 ^ 61 - 1 := by decide
  have hmin : (BitVec.ofInt 64 (-2 ^ 61) : Word).toInt = -2 ^ 61 := by decide
  have hm1 : (-1 : Word).toInt = -1 := by decide
  have hsgn := BitVec.toInt_eq_toNat_cond x
  have hlt := x.isLt
  have hhs : (x &&& ((-1 : Word) <<< 61)).toNat = x.toNat / 2 ^ 61 * 2 ^ 61 := by
    rw [and_high_mask, BitVec.toNat_shiftLeft, BitVec.toNat_ushiftRight, Nat.shiftRight_eq_div_pow,
      Nat.shiftLeft_eq]
    omega
  have hmask : ((-1 : Word) <<< 61).toNat = 2 ^ 64 - 2 ^ 61 := by decide
  have c1 : (x &&& ((-1 : Word) <<< 61) ≠ 0 ∧ x &&& ((-1 : Word) <<< 61) ≠ (-1 : Word) <<< 61) ↔
      ¬ InRange x.toInt := by
    rw [ne_eq, ne_eq, ← BitVec.toNat_inj, ← BitVec.toNat_inj, hhs, hmask]
    have h0 : (0 : Word).toNat = 0 := rfl
    rw [h0]
    unfold InRange
    split_ifs at hsgn <;> omega
  have key : C.wrapAbstract x = LLVM.wrapAbstract x ∧ aval (LLVM.wrapAbstract x) = x.toInt ∧
      ((∃ w, LLVM.wrapAbstract x = .fixed w) ↔ InRange x.toInt) := by
    simp only [C.wrapAbstract, LLVM.wrapAbstract, c1, BitVec.slt, toInt_zero', hmax, hmin,
      decide_eq_true_eq]
    by_cases hr : InRange x.toInt
    · have h1 := hr
      obtain ⟨r1, r2⟩ := h1
      rw [if_neg (not_not.mpr hr), if_neg (by omega), if_neg (by omega)]
      exact ⟨rfl, I_value hr, ⟨fun _ => hr, fun _ => ⟨_, rfl⟩⟩⟩
    · rw [if_pos hr]
      unfold InRange at hr
      by_cases hneg : x.toInt < 0
      · rw [if_pos hneg, if_neg (by omega), if_pos (by omega)]
        refine ⟨rfl, ?_, ⟨by rintro ⟨w, h⟩; exact absurd h (by simp), fun h => ?_⟩⟩
        · show sval x (-1) = _
          unfold sval
          rw [hm1]
          split_ifs at hsgn <;> omega
        · exact absurd h hr
      · rw [if_neg hneg, if_pos (by omega)]
        refine ⟨rfl, ?_, ⟨by rintro ⟨w, h⟩; exact absurd h (by simp), fun h => ?_⟩⟩
        · show sval x 0 = _
          unfold sval
          rw [toInt_zero']
          split_ifs at hsgn <;> omega
        · exact absurd h hr
  exact ⟨by rw [key.1]; exact key.2.1, key.2.1, key.1, key.2.2⟩

/-- C39: `primitive-wrap-unsigned-abstract-integer` of the LLVM back end makes
an integer with the word's unsigned value. -/
theorem llvm_wrap_unsigned_exact (x : Word) : aval (LLVM.wrapUnsigned x) = x.toNat := by
  have hmax : (BitVec.ofInt 64 (2 ^ 61 - 1) : Word).toNat = 2 ^ 61 - 1 := by decide
  have hsgn := BitVec.toInt_eq_toNat_cond x
  unfold LLVM.wrapUnsigned
  simp only [BitVec.ult, hmax, decide_eq_true_eq]
  by_cases h : 2 ^ 61 - 1 < x.toNat
  · rw [if_pos h]
    show sval x 0 = _
    unfold sval
    rw [toInt_zero']; omega
  · rw [if_neg h]
    show (C.I x).toInt / 4 = _
    rw [if_pos (by omega)] at hsgn
    rw [I_value ⟨by omega, by omega⟩, hsgn]

/-- C39, unsigned, in the C run-time.  Missing: the words from `2^61` up to
`2^62 - 1`, which become negative integers (`c_wrap_unsigned_violated`). -/
theorem c_wrap_unsigned_partial (x : Word) (h : x.toNat < 2 ^ 61 ∨ 2 ^ 62 ≤ x.toNat) :
    aval (C.wrapUnsigned x) = x.toNat := by
  have hsgn := BitVec.toInt_eq_toNat_cond x
  have hlt := x.isLt
  have hhs : (x &&& ((-1 : Word) <<< 62)).toNat = x.toNat / 2 ^ 62 * 2 ^ 62 := by
    rw [and_high_mask, BitVec.toNat_shiftLeft, BitVec.toNat_ushiftRight, Nat.shiftRight_eq_div_pow,
      Nat.shiftLeft_eq]
    omega
  have h0 : (0 : Word).toNat = 0 := rfl
  have c : (x &&& ((-1 : Word) <<< 62) ≠ 0) ↔ x.toNat / 2 ^ 62 * 2 ^ 62 ≠ 0 := by
    rw [ne_eq, ← BitVec.toNat_inj, hhs, h0]
  unfold C.wrapUnsigned
  simp only [c]
  rcases h with h | h
  · rw [if_neg (by omega)]
    show (C.I x).toInt / 4 = _
    rw [if_pos (by omega)] at hsgn
    rw [I_value ⟨by omega, by omega⟩, hsgn]
  · rw [if_pos (by omega)]
    show sval x 0 = _
    unfold sval
    rw [toInt_zero']; omega

theorem c_wrap_unsigned_violated :
    aval (C.wrapUnsigned (BitVec.ofNat 64 (2 ^ 61))) = -2 ^ 61 := by decide

example : LLVM.wrapAbstract (BitVec.ofInt 64 (-2 ^ 62)) = .double (BitVec.ofInt 64 (-2 ^ 62)) (-1) := by
  decide
example : ∃ w, LLVM.wrapAbstract 7 = .fixed w := ⟨tag 7, by decide⟩

end Verif.MachineWord
