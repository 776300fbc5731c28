import Verif.MachineWord.Spec
import Verif.Integer.Props
/-
Helper lemmas for the machine-word primitives.
-/
namespace Verif.MachineWord
open Verif.Integer
open C (Abstract)

/-! ### Halves -/

theorem toNat_lohalf (x : Word) : (C.lohalf x).toNat = x.toNat % 2 ^ 32 := by
  unfold C.lohalf
  rw [BitVec.toNat_and]
  exact Nat.and_two_pow_sub_one_eq_mod x.toNat 32

theorem toNat_hihalf (x : Word) : (C.hihalf x).toNat = x.toNat / 2 ^ 32 := by
  unfold C.hihalf
  rw [BitVec.toNat_ushiftRight, BitVec.toNat_and, Nat.shiftRight_and_distrib, Nat.shiftRight_eq_div_pow]
  have h1 : x.toNat / 2 ^ 32 < 2 ^ 32 := by have := x.isLt; omega
  have h2 : (BitVec.toNat (0xFFFFFFFF00000000 : Word)) >>> 32 = 2 ^ 32 - 1 := by decide
  rw [h2, Nat.and_two_pow_sub_one_eq_mod, Nat.mod_eq_of_lt h1]

/-- The high word that the C code computes is short by the carry out of the
middle sum. -/
theorem multiplyDouble_value (x y : Word) :
    (C.multiplyDouble x y).1.toNat = x.toNat * y.toNat % 2 ^ 64 ∧
    (C.multiplyDouble x y).2.toNat +
      ((x.toNat % 2 ^ 32) * (y.toNat % 2 ^ 32) / 2 ^ 32 +
        (x.toNat % 2 ^ 32) * (y.toNat / 2 ^ 32) % 2 ^ 32 +
        (x.toNat / 2 ^ 32) * (y.toNat % 2 ^ 32) % 2 ^ 32) / 2 ^ 32 = x.toNat * y.toNat / 2 ^ 64 := by
  have hx := x.isLt
  have hy := y.isLt
  set xl := x.toNat % 2 ^ 32 with hxl
  set xh := x.toNat / 2 ^ 32 with hxh
  set yl := y.toNat % 2 ^ 32 with hyl
  set yh := y.toNat / 2 ^ 32 with hyh
  have bound : ∀ a b : Nat, a < 2 ^ 32 → b < 2 ^ 32 → a * b ≤ (2 ^ 32 - 1) * (2 ^ 32 - 1) := by
    intro a b ha hb; exact Nat.mul_le_mul (by omega) (by omega)
  have l1 : xl < 2 ^ 32 := by omega
  have l2 : xh < 2 ^ 32 := by omega
  have l3 : yl < 2 ^ 32 := by omega
  have l4 : yh < 2 ^ 32 := by omega
  have b1 := bound xl yl l1 l3
  have b2 := bound xl yh l1 l4
  have b3 := bound xh yl l2 l3
  have b4 := bound xh yh l2 l4
  have e1 : x.toNat = xl + 2 ^ 32 * xh := by omega
  have e2 : y.toNat = yl + 2 ^ 32 * yh := by omega
  have hprod : x.toNat * y.toNat =
      xl * yl + 2 ^ 32 * (xl * yh) + 2 ^ 32 * (xh * yl) + 2 ^ 64 * (xh * yh) := by
    rw [e1, e2]; ring
  rw [hprod]
  have p1 : (C.lohalf x * C.lohalf y).toNat = xl * yl := by
    rw [BitVec.toNat_mul, toNat_lohalf, toNat_lohalf, Nat.mod_eq_of_lt]
    exact Nat.lt_of_le_of_lt b1 (by norm_num)
  have p2 : (C.lohalf x * C.hihalf y).toNat = xl * yh := by
    rw [BitVec.toNat_mul, toNat_lohalf, toNat_hihalf, Nat.mod_eq_of_lt]
    exact Nat.lt_of_le_of_lt b2 (by norm_num)
  have p3 : (C.hihalf x * C.lohalf y).toNat = xh * yl := by
    rw [BitVec.toNat_mul, toNat_lohalf, toNat_hihalf, Nat.mod_eq_of_lt]
    exact Nat.lt_of_le_of_lt b3 (by norm_num)
  have p4 : (C.hihalf x * C.hihalf y).toNat = xh * yh := by
    rw [BitVec.toNat_mul, toNat_hihalf, toNat_hihalf, Nat.mod_eq_of_lt]
    exact Nat.lt_of_le_of_lt b4 (by norm_num)
  simp only [C.multiplyDouble]
  generalize xl * yl = A at *
  generalize xl * yh = B at *
  generalize xh * yl = E at *
  generalize xh * yh = D at *
  constructor
  · rw [BitVec.toNat_add, BitVec.toNat_shiftLeft, BitVec.toNat_add, toNat_lohalf, toNat_lohalf,
      p1, p2, p3, Nat.shiftLeft_eq]
    omega
  · rw [BitVec.toNat_add, BitVec.toNat_add, toNat_hihalf, toNat_hihalf, p2, p3, p4]
    omega


/-! ### Double words -/

theorem uval_split (f : Double) : uval (LLVM.split f).1 (LLVM.split f).2 = f.toNat := by
  have := f.isLt
  unfold uval LLVM.split
  simp only [BitVec.truncate_eq_setWidth, BitVec.toNat_setWidth, BitVec.toNat_ushiftRight,
    Nat.shiftRight_eq_div_pow]
  omega

theorem sval_split (f : Double) : sval (LLVM.split f).1 (LLVM.split f).2 = f.toInt := by
  have hlt := f.isLt
  have h1 := uval_split f
  unfold uval at h1
  unfold sval
  rw [BitVec.toInt_eq_toNat_cond, BitVec.toInt_eq_toNat_cond]
  have := (LLVM.split f).1.isLt
  have := (LLVM.split f).2.isLt
  split_ifs <;> omega

theorem toNat_merge (l h : Word) : (LLVM.merge l h).toNat = uval l h := by
  have hl := l.isLt
  have hh := h.isLt
  unfold LLVM.merge uval
  rw [BitVec.toNat_or, BitVec.toNat_shiftLeft, BitVec.zeroExtend_eq_setWidth,
    BitVec.zeroExtend_eq_setWidth, BitVec.toNat_setWidth, BitVec.toNat_setWidth]
  have e1 : h.toNat % 2 ^ 128 = h.toNat := Nat.mod_eq_of_lt (by omega)
  have e2 : l.toNat % 2 ^ 128 = l.toNat := Nat.mod_eq_of_lt (by omega)
  rw [e1, e2]
  have e3 : h.toNat <<< 64 % 2 ^ 128 = h.toNat <<< 64 := by
    rw [Nat.shiftLeft_eq]; exact Nat.mod_eq_of_lt (by omega)
  rw [e3, ← Nat.shiftLeft_add_eq_or_of_lt hl, Nat.shiftLeft_eq]
  omega

theorem toInt_merge (l h : Word) : (LLVM.merge l h).toInt = sval l h := by
  have h1 := toNat_merge l h
  have hl := l.isLt
  have hh := h.isLt
  unfold uval at h1
  unfold sval
  rw [BitVec.toInt_eq_toNat_cond, BitVec.toInt_eq_toNat_cond]
  split_ifs <;> omega

theorem toInt_sext_mul (x y : Word) :
    (x.signExtend 128 * y.signExtend 128).toInt = x.toInt * y.toInt := by
  rw [BitVec.toInt_mul, BitVec.toInt_signExtend_of_le (by norm_num),
    BitVec.toInt_signExtend_of_le (by norm_num)]
  obtain ⟨a, b⟩ := inWord_toInt x
  obtain ⟨c, d⟩ := inWord_toInt y
  have h1 : x.toInt * y.toInt ≤ 2 ^ 63 * 2 ^ 63 := by nlinarith
  have h2 : -(2 ^ 63 * 2 ^ 63) ≤ x.toInt * y.toInt := by nlinarith
  apply Int.bmod_eq_of_le <;> omega

theorem sval_inj {l h : Word} {v : Int} (hv : InWord v) (e : sval l h = v) : l.toInt = v := by
  obtain ⟨a, b⟩ := hv
  unfold sval at e
  have := l.isLt
  obtain ⟨c, d⟩ := inWord_toInt h
  rw [BitVec.toInt_eq_toNat_cond]
  split_ifs <;> omega

theorem toInt_trunc_of_inWord {f : Double} (h : InWord f.toInt) :
    (f.truncate 64).toInt = f.toInt :=
  sval_inj h (sval_split f)

theorem toNat_trunc_of_lt {f : Double} (h : f.toNat < 2 ^ 64) : (f.truncate 64).toNat = f.toNat := by
  rw [BitVec.truncate_eq_setWidth, BitVec.toNat_setWidth, Nat.mod_eq_of_lt h]

theorem sext_eq_zero {d : Word} : d.signExtend 128 = (0 : Double) ↔ d = 0 := by
  constructor
  · intro h
    have := congrArg BitVec.toInt h
    rw [BitVec.toInt_signExtend_of_le (by norm_num)] at this
    exact (eq_zero_iff_toInt d).mpr this
  · rintro rfl; decide

theorem floorAdjust_spec {d r y : Word} {X : Int} (hy : y ≠ 0)
    (f1 : X = d.toInt * y.toInt + r.toInt)
    (f2 : 0 < y.toInt → -y.toInt < r.toInt ∧ r.toInt < y.toInt)
    (f3 : y.toInt < 0 → y.toInt < r.toInt ∧ r.toInt < -y.toInt)
    (hw : InWord ⌊(X : ℚ) / y.toInt⌋) :
    ∃ q m, floorAdjust y d r = .ok (q, m) ∧ q.toInt = ⌊(X : ℚ) / y.toInt⌋ ∧
      m.toInt = X - ⌊(X : ℚ) / y.toInt⌋ * y.toInt := by
  have hY := toInt_ne_zero hy
  obtain ⟨by1, by2⟩ := inWord_toInt y
  by_cases hadj : (y.toInt < 0 ∧ 0 < r.toInt) ∨ (0 < y.toInt ∧ r.toInt < 0)
  · have hfl : ⌊(X : ℚ) / y.toInt⌋ = d.toInt - 1 :=
      floor_unique (r := r.toInt + y.toInt) (by rw [sub_mul]; omega) (by omega) (by omega) hY
    rw [hfl] at hw ⊢
    obtain ⟨q, m, e, eq, em⟩ := decrease_ok hw (r := r) (y := y) (by constructor <;> omega)
    refine ⟨q, m, ?_, eq, by rw [em, sub_mul]; omega⟩
    rw [floorAdjust, if_neg (fun h => by have := (eq_zero_iff_toInt r).mp h; omega), slt_zero,
      slt_zero, zero_slt]
    rcases hadj with ⟨h1, h2⟩ | ⟨h1, h2⟩
    · simp only [h1, h2, decide_true, if_true]; exact e
    · simp only [show ¬ y.toInt < 0 by omega, h2, decide_true, decide_false, if_true]
      exact e
  · have hfl : ⌊(X : ℚ) / y.toInt⌋ = d.toInt := floor_unique f1 (by omega) (by omega) hY
    rw [hfl]
    refine ⟨d, r, ?_, rfl, by omega⟩
    rw [floorAdjust]
    by_cases hr : r = 0
    · rw [if_pos hr, hr]
    · have hr0 : r.toInt ≠ 0 := toInt_ne_zero hr
      rw [if_neg hr, slt_zero, slt_zero, zero_slt]
      by_cases h1 : y.toInt < 0
      · simp only [h1, show ¬ 0 < r.toInt by omega, decide_true, decide_false, if_true]; rfl
      · simp only [h1, show ¬ r.toInt < 0 by omega, decide_false]; rfl

theorem ceilingAdjust_spec {d r y : Word} {X : Int} (hy : y ≠ 0)
    (f1 : X = d.toInt * y.toInt + r.toInt)
    (f2 : 0 < y.toInt → -y.toInt < r.toInt ∧ r.toInt < y.toInt)
    (f3 : y.toInt < 0 → y.toInt < r.toInt ∧ r.toInt < -y.toInt)
    (hw : InWord ⌈(X : ℚ) / y.toInt⌉) :
    ∃ q m, ceilingAdjust y d r = .ok (q, m) ∧ q.toInt = ⌈(X : ℚ) / y.toInt⌉ ∧
      m.toInt = X - ⌈(X : ℚ) / y.toInt⌉ * y.toInt := by
  have hY := toInt_ne_zero hy
  obtain ⟨by1, by2⟩ := inWord_toInt y
  by_cases hadj : (y.toInt < 0 ∧ r.toInt < 0) ∨ (0 < y.toInt ∧ 0 < r.toInt)
  · have hfl : ⌈(X : ℚ) / y.toInt⌉ = d.toInt + 1 :=
      ceil_unique (r := r.toInt - y.toInt) (by rw [add_mul]; omega) (by omega) (by omega) hY
    rw [hfl] at hw ⊢
    obtain ⟨q, m, e, eq, em⟩ := increase_ok hw (r := r) (y := y) (by constructor <;> omega)
    refine ⟨q, m, ?_, eq, by rw [em, add_mul]; omega⟩
    rw [ceilingAdjust, if_neg (fun h => by have := (eq_zero_iff_toInt r).mp h; omega), slt_zero,
      slt_zero, zero_slt]
    rcases hadj with ⟨h1, h2⟩ | ⟨h1, h2⟩
    · simp only [h1, h2, decide_true, if_true]; exact e
    · simp only [show ¬ y.toInt < 0 by omega, h2, decide_true, decide_false, if_true]
      exact e
  · have hfl : ⌈(X : ℚ) / y.toInt⌉ = d.toInt := ceil_unique f1 (by omega) (by omega) hY
    rw [hfl]
    refine ⟨d, r, ?_, rfl, by omega⟩
    rw [ceilingAdjust]
    by_cases hr : r = 0
    · rw [if_pos hr, hr]
    · have hr0 : r.toInt ≠ 0 := toInt_ne_zero hr
      rw [if_neg hr, slt_zero, slt_zero, zero_slt]
      by_cases h1 : y.toInt < 0
      · simp only [h1, show ¬ r.toInt < 0 by omega, decide_true, decide_false, if_true]; rfl
      · simp only [h1, show ¬ 0 < r.toInt by omega, decide_false]; rfl

/-- The truncating double-word division, when the quotient fits. -/
theorem doubleDivide_spec {l h y : Word} (hy : y ≠ 0)
    (hq : InWord ((sval l h).tdiv y.toInt)) :
    ∃ q r, LLVM.doubleDivide l h y = .ok (q, r) ∧ q.toInt = (sval l h).tdiv y.toInt ∧
      r.toInt = (sval l h).tmod y.toInt := by
  have hY := toInt_ne_zero hy
  have ed : (y.signExtend 128).toInt = y.toInt := BitVec.toInt_signExtend_of_le (by norm_num)
  have hne : ¬ (LLVM.merge l h = BitVec.intMin 128 ∧ y.signExtend 128 = -1) := by
    rintro ⟨h1, h2⟩
    have h3 := congrArg BitVec.toInt h1
    have h4 := congrArg BitVec.toInt h2
    rw [ed] at h4
    rw [toInt_merge] at h3
    have h5 : (BitVec.intMin 128).toInt = -2 ^ 127 := by decide
    have h6 : (-1 : Double).toInt = -1 := by decide
    rw [h3, h4, h5, h6] at hq
    exact absurd hq (by decide)
  rw [LLVM.doubleDivide]
  simp only [sext_eq_zero, if_neg hy, if_neg hne]
  refine ⟨_, _, rfl, ?_, ?_⟩
  · have e : ((LLVM.merge l h).sdiv (y.signExtend 128)).toInt = (sval l h).tdiv y.toInt := by
      rw [BitVec.toInt_sdiv_of_ne_or_ne, toInt_merge, ed]
      by_contra hc
      push Not at hc
      exact hne hc
    rw [toInt_trunc_of_inWord (by rw [e]; exact hq), e]
  · have e : ((LLVM.merge l h).srem (y.signExtend 128)).toInt = (sval l h).tmod y.toInt := by
      rw [BitVec.toInt_srem, toInt_merge, ed]
    have hb : ((sval l h).tmod y.toInt).natAbs < y.toInt.natAbs := by
      rw [Int.natAbs_tmod]; exact Nat.mod_lt _ (by omega)
    obtain ⟨a, b⟩ := inWord_toInt y
    rw [toInt_trunc_of_inWord (by rw [e]; constructor <;> omega), e]

theorem tmod_bounds (x y : Int) (hy : y ≠ 0) :
    x = x.tdiv y * y + x.tmod y ∧ (0 < y → -y < x.tmod y ∧ x.tmod y < y) ∧
      (y < 0 → y < x.tmod y ∧ x.tmod y < -y) := by
  have e : x = x.tdiv y * y + x.tmod y := by
    have := Int.mul_tdiv_add_tmod x y; linarith [mul_comm y (x.tdiv y)]
  have hb : (x.tmod y).natAbs < y.natAbs := by
    rw [Int.natAbs_tmod]; exact Nat.mod_lt _ (by omega)
  exact ⟨e, by omega, by omega⟩

/-- Sign of an exclusive or. -/
theorem slt_xor (a b : Word) :
    (a ^^^ b).slt 0 = (decide (a.toInt < 0) != decide (b.toInt < 0)) := by
  rw [show (a ^^^ b).slt 0 = (a ^^^ b).msb from by
    rw [BitVec.msb_eq_toInt, slt_zero], BitVec.msb_xor, BitVec.msb_eq_toInt, BitVec.msb_eq_toInt]

end Verif.MachineWord
