import Verif.Integer.Shift
import Verif.Integer.Div
import Verif.Integer.Num
import Mathlib.Data.Nat.Prime.Basic
import Mathlib.Tactic.NormNum.Prime
/-
Properties C15–C19 and C33–C35 of the integer functions.

`tag n` is the machine word representing the `<integer>` whose value is `n`.
-/
namespace Verif.Integer

/-! ## C15: exact or overflow -/

/-- C15, `+`. -/
theorem plus_exact {a b : Int} (ha : InRange a) (hb : InRange b) :
    plus (tag a) (tag b) = if InRange (a + b) then .ok (tag (a + b)) else .overflow :=
  plus_tag ha hb

/-- C15, `-`. -/
theorem minus_exact {a b : Int} (ha : InRange a) (hb : InRange b) :
    minus (tag a) (tag b) = if InRange (a - b) then .ok (tag (a - b)) else .overflow :=
  minus_tag ha hb

/-- C15, `*`. -/
theorem times_exact {a b : Int} (ha : InRange a) (hb : InRange b) :
    times (tag a) (tag b) = if InRange (a * b) then .ok (tag (a * b)) else .overflow :=
  times_tag ha hb

/-- C15, `negative`. -/
theorem negative_exact {a : Int} (ha : InRange a) :
    negative (tag a) = if InRange (-a) then .ok (tag (-a)) else .overflow :=
  negative_tag ha

/-- C15, `abs`. -/
theorem abs_exact {a : Int} (ha : InRange a) :
    abs (tag a) = if InRange |a| then .ok (tag |a|) else .overflow :=
  abs_tag ha

/-- Distinct integers have distinct representations, so the theorems above
determine the value returned. -/
theorem tag_injective {a b : Int} (ha : InRange a) (hb : InRange b) (h : tag a = tag b) : a = b :=
  (tag_inj ha hb).mp h

example : InRange (2 ^ 61 - 1) ∧ InRange (-2 ^ 61) ∧ ¬ InRange (2 ^ 61) := by decide
example : plus (tag (2 ^ 61 - 1)) (tag 1) = .overflow ∧
    plus (tag (2 ^ 61 - 2)) (tag 1) = .ok (tag (2 ^ 61 - 1)) := by decide
example : times (tag (-3)) (tag (2 ^ 59)) = .ok (tag (-3 * 2 ^ 59)) := by decide
example : abs (tag (-2 ^ 61)) = .overflow := by decide

/-- C15 fails for programs compiled with the C back end: out-of-range sums and
products signal nothing and are undefined. -/
theorem c_back_end_no_overflow_signal :
    ∃ a b, InRange a ∧ InRange b ∧ ¬ InRange (a + b) ∧ ¬ InRange (a * b) ∧
      plusC (tag a) (tag b) = .poison ∧ timesC (tag a) (tag b) = .poison :=
  ⟨2 ^ 61 - 1, 2 ^ 61 - 1, by decide⟩

/-! ## C33: comparison -/

/-- C33: `<` and `=` compare the values. -/
theorem comparison_exact {a b : Int} (ha : InRange a) (hb : InRange b) :
    (ltI (tag a) (tag b) = true ↔ a < b) ∧ (eqI (tag a) (tag b) = true ↔ a = b) := by
  rw [ltI_tag ha hb, eqI_tag ha hb]; simp

example : ltI (tag (-5)) (tag 3) = true := by decide

/-! ## C34: conversion between machine words and integers -/

/-- C34: `as(<integer>, w)` has the signed value of the word, or signals
overflow when that is not representable; `as(<machine-word>, i)` inverts it. -/
theorem conversion_exact (w : Word) :
    coerce w = (if InRange w.toInt then .ok (tag w.toInt) else .overflow) ∧
    (InRange w.toInt → untag (tag w.toInt) = w) := by
  refine ⟨coerce_eq w, fun h => ?_⟩
  apply BitVec.eq_of_toInt_eq
  rw [toInt_untag_tag h]

/-- C34: `machine-word-is-integer?` tells exactly whether the conversion
succeeds. -/
theorem is_integer_exact (w : Word) : isInteger w = true ↔ InRange w.toInt := by
  obtain ⟨h1, h2⟩ := inWord_toInt w
  have e : (w.sshiftRight 61).toInt = w.toInt / 2 ^ 61 := by
    rw [BitVec.toInt_sshiftRight, Int.shiftRight_eq_div_pow]; norm_num
  have hz : (w.sshiftRight 61 = 0) ↔ w.toInt / 2 ^ 61 = 0 := by
    rw [← e]; exact eq_zero_iff_toInt _
  have hm : (w.sshiftRight 61 = -1) ↔ w.toInt / 2 ^ 61 = -1 := by
    rw [← e]
    constructor
    · intro h; rw [h]; rfl
    · intro h; apply BitVec.eq_of_toInt_eq; rw [h]; rfl
  unfold isInteger InRange
  simp only [Bool.or_eq_true, beq_iff_eq, hz, hm]
  omega

example : isInteger 5 = true ∧ isInteger (BitVec.ofInt 64 (2 ^ 61)) = false := by decide

/-! ## C16: division -/

theorem floor_unique {X Y q r : Int} (h : X = q * Y + r) (h1 : 0 < Y → 0 ≤ r ∧ r < Y)
    (h2 : Y < 0 → Y < r ∧ r ≤ 0) (hY : Y ≠ 0) : ⌊(X : ℚ) / Y⌋ = q := by
  rw [Int.floor_eq_iff]
  rcases lt_or_gt_of_ne hY with hn | hp
  · have hn' : (Y : ℚ) < 0 := by exact_mod_cast hn
    obtain ⟨a, b⟩ := h2 hn
    rw [le_div_iff_of_neg hn', div_lt_iff_of_neg hn']
    constructor
    · have : X ≤ q * Y := by omega
      exact_mod_cast this
    · have : (q + 1) * Y < X := by rw [add_mul]; omega
      exact_mod_cast this
  · have hp' : (0 : ℚ) < Y := by exact_mod_cast hp
    obtain ⟨a, b⟩ := h1 hp
    rw [le_div_iff₀ hp', div_lt_iff₀ hp']
    constructor
    · have : q * Y ≤ X := by omega
      exact_mod_cast this
    · have : X < (q + 1) * Y := by rw [add_mul]; omega
      exact_mod_cast this

theorem ceil_unique {X Y q r : Int} (h : X = q * Y + r) (h1 : 0 < Y → -Y < r ∧ r ≤ 0)
    (h2 : Y < 0 → 0 ≤ r ∧ r < -Y) (hY : Y ≠ 0) : ⌈(X : ℚ) / Y⌉ = q := by
  rw [Int.ceil_eq_iff]
  rcases lt_or_gt_of_ne hY with hn | hp
  · have hn' : (Y : ℚ) < 0 := by exact_mod_cast hn
    obtain ⟨a, b⟩ := h2 hn
    rw [lt_div_iff_of_neg hn', div_le_iff_of_neg hn']
    constructor
    · have : X < (q - 1) * Y := by rw [sub_mul]; omega
      exact_mod_cast this
    · have : q * Y ≤ X := by omega
      exact_mod_cast this
  · have hp' : (0 : ℚ) < Y := by exact_mod_cast hp
    obtain ⟨a, b⟩ := h1 hp
    rw [lt_div_iff₀ hp', div_le_iff₀ hp']
    constructor
    · have : (q - 1) * Y < X := by rw [sub_mul]; omega
      exact_mod_cast this
    · have : X ≤ q * Y := by omega
      exact_mod_cast this

/-- A quotient and remainder of representable integers are representable. -/
theorem quotient_inRange {X Y q r : Int} (hX : InRange X) (hYr : InRange Y) (hY : Y ≠ 0)
    (hne : ¬ (X = -2 ^ 61 ∧ Y = -1)) (h : X = q * Y + r)
    (h1 : 0 < Y → -Y < r ∧ r < Y) (h2 : Y < 0 → Y < r ∧ r < -Y) : InRange q ∧ InRange r := by
  obtain ⟨x1, x2⟩ := hX
  obtain ⟨y1, y2⟩ := hYr
  rcases lt_or_gt_of_ne hY with hn | hp
  · obtain ⟨a, b⟩ := h2 hn
    refine ⟨⟨?_, ?_⟩, ⟨by omega, by omega⟩⟩
    · by_contra hc; push Not at hc; nlinarith
    · by_contra hc
      push Not at hc
      by_cases h1 : Y = -1
      · subst h1; omega
      · have : Y ≤ -2 := by omega
        nlinarith
  · obtain ⟨a, b⟩ := h1 hp
    refine ⟨⟨?_, ?_⟩, ⟨by omega, by omega⟩⟩
    · by_contra hc; push Not at hc; nlinarith
    · by_contra hc; push Not at hc; nlinarith

theorem untag_ok {x y : Int} (hx : InRange x) (hy : InRange y) (hy0 : y ≠ 0) :
    untag (tag y) ≠ 0 ∧ ¬ (untag (tag x) = BitVec.intMin 64 ∧ untag (tag y) = -1) ∧
      untag (tag y) ≠ BitVec.intMin 64 := by
  have hmin : ∀ z, InRange z → untag (tag z) ≠ BitVec.intMin 64 := by
    intro z hz h
    have := congrArg BitVec.toInt h
    rw [toInt_untag_tag hz] at this
    have h2 : (BitVec.intMin 64).toInt = -2 ^ 63 := by decide
    obtain ⟨z1, z2⟩ := hz
    omega
  refine ⟨?_, fun h => hmin x hx h.1, hmin y hy⟩
  intro h
  have := congrArg BitVec.toInt h
  rw [toInt_untag_tag hy, toInt_zero'] at this
  exact hy0 this

theorem division_of_prim {prim : Word → Word → Out (Word × Word)} {x y : Int} {q r : Word}
    (e : prim (untag (tag x)) (untag (tag y)) = .ok (q, r))
    (hq : InRange q.toInt) (hr : InRange r.toInt) :
    divisionMethod prim (tag x) (tag y) = .ok (tag q.toInt, tag r.toInt) := by
  rw [divisionMethod, e, bind_ok]
  simp only [coerce_eq, hq, hr, if_true, bind_ok]

/-- C16, `floor/`. -/
theorem floor_exact {x y : Int} (hx : InRange x) (hy : InRange y) (hy0 : y ≠ 0)
    (hne : ¬ (x = -2 ^ 61 ∧ y = -1)) :
    floorDiv (tag x) (tag y) = .ok (tag ⌊(x : ℚ) / y⌋, tag (x - ⌊(x : ℚ) / y⌋ * y)) := by
  obtain ⟨n1, n2, _⟩ := untag_ok hx hy hy0
  obtain ⟨q, r, e, h, h1, h2⟩ := floorW_spec n1 n2
  rw [toInt_untag_tag hx, toInt_untag_tag hy] at h
  rw [toInt_untag_tag hy] at h1 h2
  have hfl := floor_unique h h1 h2 hy0
  obtain ⟨iq, ir⟩ := quotient_inRange hx hy hy0 hne h (by omega) (by omega)
  rw [floorDiv, division_of_prim e iq ir, hfl]
  congr 3
  omega

/-- C16, `ceiling/`. -/
theorem ceiling_exact {x y : Int} (hx : InRange x) (hy : InRange y) (hy0 : y ≠ 0)
    (hne : ¬ (x = -2 ^ 61 ∧ y = -1)) :
    ceilingDiv (tag x) (tag y) = .ok (tag ⌈(x : ℚ) / y⌉, tag (x - ⌈(x : ℚ) / y⌉ * y)) := by
  obtain ⟨n1, n2, _⟩ := untag_ok hx hy hy0
  obtain ⟨q, r, e, h, h1, h2⟩ := ceilingW_spec n1 n2
  rw [toInt_untag_tag hx, toInt_untag_tag hy] at h
  rw [toInt_untag_tag hy] at h1 h2
  have hfl := ceil_unique h h1 h2 hy0
  obtain ⟨iq, ir⟩ := quotient_inRange hx hy hy0 hne h (by omega) (by omega)
  rw [ceilingDiv, division_of_prim e iq ir, hfl]
  congr 3
  omega

theorem truncate_unique (x y : Int) (hy : y ≠ 0) : IsTruncate x y (x.tdiv y) := by
  unfold IsTruncate
  have e : x = x.tdiv y * y + x.tmod y := by
    have := Int.mul_tdiv_add_tmod x y; linarith [mul_comm y (x.tdiv y)]
  have hb : (x.tmod y).natAbs < y.natAbs := by
    rw [Int.natAbs_tmod]; exact Nat.mod_lt _ (by omega)
  have hs1 : 0 ≤ x → 0 ≤ x.tmod y := fun h => Int.tmod_nonneg _ h
  have hs2 : x ≤ 0 → x.tmod y ≤ 0 := by
    intro h
    have := Int.tmod_nonneg y (show 0 ≤ -x by omega)
    rw [Int.neg_tmod] at this
    omega
  generalize x.tmod y = r at *
  have hsign : 0 ≤ (x : ℚ) / y ↔ (0 ≤ x ∧ 0 < y ∨ x ≤ 0 ∧ y < 0) := by
    rcases lt_or_gt_of_ne hy with hn | hp
    · have hn' : (y : ℚ) < 0 := by exact_mod_cast hn
      rw [le_div_iff_of_neg hn', zero_mul]
      have : (x : ℚ) ≤ 0 ↔ x ≤ 0 := by exact_mod_cast Iff.rfl
      rw [this]; omega
    · have hp' : (0 : ℚ) < y := by exact_mod_cast hp
      rw [le_div_iff₀ hp', zero_mul]
      have : (0 : ℚ) ≤ x ↔ 0 ≤ x := by exact_mod_cast Iff.rfl
      rw [this]; omega
  by_cases hc : 0 ≤ (x : ℚ) / y
  · rw [if_pos hc]
    rw [hsign] at hc
    exact (floor_unique e (by omega) (by omega) hy).symm
  · rw [if_neg hc]
    rw [hsign] at hc
    exact (ceil_unique e (by omega) (by omega) hy).symm

/-- C16, `truncate/`. -/
theorem truncate_exact {x y : Int} (hx : InRange x) (hy : InRange y) (hy0 : y ≠ 0)
    (hne : ¬ (x = -2 ^ 61 ∧ y = -1)) :
    ∃ q, IsTruncate x y q ∧ truncateDiv (tag x) (tag y) = .ok (tag q, tag (x - q * y)) := by
  obtain ⟨n1, n2, _⟩ := untag_ok hx hy hy0
  obtain ⟨q, r, e, hq, hr⟩ := truncateW_spec n1 n2
  rw [toInt_untag_tag hx, toInt_untag_tag hy] at hq hr
  obtain ⟨f1, f2, f3, f4⟩ := tdiv_facts x y hy0 (by obtain ⟨a, b⟩ := hx; constructor <;> omega)
  have h : x = q.toInt * y + r.toInt := by rw [hq, hr]; exact f1
  obtain ⟨iq, ir⟩ := quotient_inRange hx hy hy0 hne h (by rw [hr]; exact f2) (by rw [hr]; exact f3)
  refine ⟨q.toInt, by rw [hq]; exact truncate_unique x y hy0, ?_⟩
  rw [truncateDiv, division_of_prim e iq ir]
  congr 3
  omega

/-- C16: the one representable pair with an unrepresentable quotient signals
overflow, and a zero divisor traps, in all four functions. -/
theorem division_exceptions :
    (∀ x, InRange x → floorDiv (tag x) (tag 0) = .trap ∧ ceilingDiv (tag x) (tag 0) = .trap ∧
      roundDiv (tag x) (tag 0) = .trap ∧ truncateDiv (tag x) (tag 0) = .trap) ∧
    floorDiv (tag (-2 ^ 61)) (tag (-1)) = .overflow ∧
    ceilingDiv (tag (-2 ^ 61)) (tag (-1)) = .overflow ∧
    roundDiv (tag (-2 ^ 61)) (tag (-1)) = .overflow ∧
    truncateDiv (tag (-2 ^ 61)) (tag (-1)) = .overflow := by
  refine ⟨fun x _ => ⟨rfl, rfl, rfl, rfl⟩, ?_⟩
  decide

/-- The arguments for which the threshold of `round/` is wrong: an odd divisor,
an odd truncated quotient, and a remainder just below half the divisor. -/
def RoundBad (x y : Int) : Prop :=
  y % 2 = 1 ∧ x.tdiv y % 2 = 1 ∧ 2 * |x.tmod y| + 1 = |y|

/-- C16, `round/`: correct unless `RoundBad`.  Missing: the arguments in
`RoundBad`, where the code is wrong (`round_wrong`). -/
theorem round_exact_partial {x y : Int} (hx : InRange x) (hy : InRange y) (hy0 : y ≠ 0)
    (hne : ¬ (x = -2 ^ 61 ∧ y = -1)) (hgood : ¬ RoundBad x y) :
    ∃ q, IsRound x y q ∧ roundDiv (tag x) (tag y) = .ok (tag q, tag (x - q * y)) := by
  obtain ⟨n1, n2, n3⟩ := untag_ok hx hy hy0
  have hx' := hx
  obtain ⟨x1, x2⟩ := hx'
  obtain ⟨q, r, e, h, hcase⟩ := roundW_spec n1 n3 n2 (toInt_untag_tag hx) (toInt_untag_tag hy)
    rfl rfl (Or.inr (Or.inr (Or.inr ⟨by omega, by omega⟩)))
  have hfacts := tdiv_facts x y hy0 (by constructor <;> omega)
  obtain ⟨f1, f2, f3, f4⟩ := hfacts
  unfold RoundBad at hgood
  rw [Int.abs_eq_natAbs, Int.abs_eq_natAbs] at hgood
  have hr2 : 2 * (r.toInt.natAbs : Int) ≤ y.natAbs := by
    rcases hcase with ⟨_, h2, h3⟩ | ⟨_, h2, h3⟩
    · rw [h2]; omega
    · omega
  have htie : 2 * (r.toInt.natAbs : Int) = y.natAbs → q.toInt % 2 = 0 := by
    intro ht
    rcases hcase with ⟨h1, h2, h3⟩ | ⟨h1, h2, h3⟩
    · rw [h1]; rw [h2] at ht; omega
    · omega
  have hxr : x - q.toInt * y = r.toInt := by omega
  obtain ⟨iq, ir⟩ := quotient_inRange hx hy hy0 hne h (by omega) (by omega)
  refine ⟨q.toInt, ⟨?_, ?_⟩, ?_⟩
  · rw [hxr, Int.abs_eq_natAbs, Int.abs_eq_natAbs]; exact hr2
  · rw [hxr, Int.abs_eq_natAbs, Int.abs_eq_natAbs]; exact htie
  · rw [roundDiv, division_of_prim e iq ir, hxr]

/-- C16 fails for `round/` on every pair in `RoundBad`: whatever it returns is
not the nearest integer. -/
theorem round_wrong {x y : Int} (hx : InRange x) (hy : InRange y) (hbad : RoundBad x y) :
    ∀ q r, InRange q → roundDiv (tag x) (tag y) = .ok (tag q, r) → ¬ IsRound x y q := by
  intro q r hq e hround
  have hy0 : y ≠ 0 := by unfold RoundBad at hbad; omega
  obtain ⟨n1, n2, n3⟩ := untag_ok hx hy hy0
  have hx' := hx
  obtain ⟨x1, x2⟩ := hx'
  obtain ⟨q', r', e', h, hcase⟩ := roundW_spec n1 n3 n2 (toInt_untag_tag hx) (toInt_untag_tag hy)
    rfl rfl (Or.inr (Or.inr (Or.inr ⟨by omega, by omega⟩)))
  unfold RoundBad at hbad
  rw [Int.abs_eq_natAbs, Int.abs_eq_natAbs] at hbad
  rw [roundDiv, divisionMethod, e', bind_ok] at e
  change (coerce q' >>= fun q => coerce r' >>= fun r => Out.ok (q, r)) = _ at e
  rw [coerce_eq] at e
  by_cases hq' : InRange q'.toInt
  · rw [if_pos hq', bind_ok, coerce_eq] at e
    by_cases hr' : InRange r'.toInt
    · rw [if_pos hr', bind_ok] at e
      simp only [Out.ok.injEq, Prod.mk.injEq] at e
      have hqq : q'.toInt = q := (tag_inj hq' hq).mp e.1
      unfold IsRound at hround
      have hxr : x - q * y = r'.toInt := by rw [← hqq]; omega
      rw [hxr, Int.abs_eq_natAbs, Int.abs_eq_natAbs] at hround
      rcases hcase with ⟨_, h2, h3⟩ | ⟨_, h2, h3⟩
      · omega
      · omega
    · rw [if_neg hr', bind_overflow] at e
      exact absurd e (by simp)
  · rw [if_neg hq', bind_overflow] at e
    exact absurd e (by simp)

/-- Concrete wrong results: `round/(4, 3)` is 2, and `round/(3, 1)` is 4. -/
theorem round_wrong_examples :
    roundDiv (tag 4) (tag 3) = .ok (tag 2, tag (-2)) ∧
    roundDiv (tag 3) (tag 1) = .ok (tag 4, tag (-1)) ∧
    roundDiv (tag (-5)) (tag (-1)) = .ok (tag 4, tag (-1)) := by decide

example : RoundBad 3 1 ∧ RoundBad 4 3 := by unfold RoundBad; decide
example : ¬ RoundBad 7 2 ∧ roundDiv (tag 7) (tag 2) = .ok (tag 4, tag (-1)) := by
  unfold RoundBad; decide
example : floorDiv (tag (-7)) (tag 2) = .ok (tag (-4), tag 1) := by decide

/-- C16: `modulo` is the remainder of `floor/`, for every nonzero divisor. -/
theorem modulo_exact {x y : Int} (hx : InRange x) (hy : InRange y) (hy0 : y ≠ 0) :
    modulo (tag x) (tag y) = .ok (tag (x - ⌊(x : ℚ) / y⌋ * y)) := by
  obtain ⟨n1, n2, _⟩ := untag_ok hx hy hy0
  obtain ⟨q, r, e, h, h1, h2⟩ := floorW_spec n1 n2
  rw [toInt_untag_tag hx, toInt_untag_tag hy] at h
  rw [toInt_untag_tag hy] at h1 h2
  rw [floor_unique h h1 h2 hy0]
  have hr : InRange r.toInt := by obtain ⟨a, b⟩ := hy; constructor <;> omega
  rw [modulo, e, bind_ok]
  change Out.ok (insert (r <<< 2)) = _
  congr 1
  have hxr : x - q.toInt * y = r.toInt := by omega
  rw [hxr]
  apply insert_eq_tag hr
  rw [toInt_shl]
  have e4 : r.toInt * 2 ^ 2 = 4 * r.toInt := by ring
  rw [e4]; exact bmod_word ((inWord4_iff _).mpr hr)

/-- C16: `remainder` is the remainder of `truncate/`, for every nonzero
divisor. -/
theorem remainder_exact {x y : Int} (hx : InRange x) (hy : InRange y) (hy0 : y ≠ 0) :
    ∃ q, IsTruncate x y q ∧ remainder (tag x) (tag y) = .ok (tag (x - q * y)) := by
  obtain ⟨n1, n2, _⟩ := untag_ok hx hy hy0
  obtain ⟨_, e2, _, e4⟩ := sdiv_srem n1 n2
  rw [toInt_untag_tag hx, toInt_untag_tag hy] at e4
  obtain ⟨f1, f2, f3, f4⟩ := tdiv_facts x y hy0 (by obtain ⟨a, b⟩ := hx; constructor <;> omega)
  refine ⟨x.tdiv y, truncate_unique x y hy0, ?_⟩
  have hr : InRange (x.tmod y) := by obtain ⟨a, b⟩ := hy; constructor <;> omega
  rw [remainder, e2, bind_ok]
  congr 1
  have hxr : x - x.tdiv y * y = x.tmod y := by omega
  rw [hxr]
  apply insert_eq_tag hr
  rw [toInt_shl, e4]
  have e5 : x.tmod y * 2 ^ 2 = 4 * x.tmod y := by ring
  rw [e5]; exact bmod_word ((inWord4_iff _).mpr hr)

/-! ## C17: gcd and lcm -/

/-- C17, `gcd`: terminates with the greatest common divisor.  Missing: zero or
equal arguments that are negative, and `$minimum-integer` (`gcd_violated`). -/
theorem gcd_partial {n m : Int} (hn : InRange n) (hm : InRange m)
    (h1 : n = 0 → 0 ≤ m) (h2 : m = 0 → 0 ≤ n) (h3 : n = m → 0 ≤ n)
    (h4 : n = 0 ∨ m = 0 ∨ n = m ∨ (n ≠ -2 ^ 61 ∧ m ≠ -2 ^ 61)) :
    ∃ N, ∀ fuel, N ≤ fuel → gcd fuel n m = .ok (Int.gcd n m) := by
  by_cases hn0 : n = 0
  · subst hn0
    refine ⟨0, fun fuel _ => ?_⟩
    rw [gcd, if_pos rfl, Int.gcd_zero_left]
    congr 1; have := h1 rfl; omega
  by_cases hm0 : m = 0
  · subst hm0
    refine ⟨0, fun fuel _ => ?_⟩
    rw [gcd, if_neg hn0, if_pos rfl, Int.gcd_zero_right]
    congr 1; have := h2 rfl; omega
  by_cases hnm : n = m
  · subst hnm
    refine ⟨0, fun fuel _ => ?_⟩
    rw [gcd, if_neg hn0, if_neg hm0, if_pos rfl, Int.gcd_self]
    congr 1; have := h3 rfl; omega
  obtain ⟨a, b⟩ : n ≠ -2 ^ 61 ∧ m ≠ -2 ^ 61 := by omega
  exact gcd_general hn hm a b hn0 hm0 hnm

/-- C17 fails for `gcd`: with a zero or equal negative argument the result is
negative, and with `$minimum-integer` it signals overflow although the divisor
is representable. -/
theorem gcd_violated : ∀ fuel,
    gcd fuel 0 (-4) = .ok (-4) ∧ gcd fuel (-4) 0 = .ok (-4) ∧ gcd fuel (-3) (-3) = .ok (-3) ∧
    gcd fuel (-2 ^ 61) 6 = .overflow ∧ Int.gcd (-2 ^ 61) 6 = 2 := by
  intro fuel
  refine ⟨rfl, rfl, rfl, ?_, by decide⟩
  rw [gcd]; rfl

/-- C17, `lcm`: the least common multiple, or overflow.  Missing: negative
arguments and two zeros (`lcm_violated`). -/
theorem lcm_partial {n m : Int} (hn : InRange n) (hm : InRange m) (h1 : 0 ≤ n) (h2 : 0 ≤ m)
    (h3 : ¬ (n = 0 ∧ m = 0)) :
    ∃ N, ∀ fuel, N ≤ fuel → lcm fuel n m =
      if InRange (Int.lcm n m) then .ok (Int.lcm n m) else .overflow := by
  obtain ⟨N, hN⟩ := gcd_partial hn hm (by omega) (by omega) (by omega) (by omega)
  refine ⟨N, fun fuel hf => ?_⟩
  rw [lcm, hN fuel hf, bind_ok]
  have hg0 : 0 < Int.gcd n m := Int.gcd_pos_iff.mpr (by omega)
  have hg0' : (Int.gcd n m : Int) ≠ 0 := by omega
  obtain ⟨a1, a2⟩ := hn
  obtain ⟨b1, b2⟩ := hm
  have hmax0 : 0 ≤ max n m := le_max_of_le_left h1
  have hmaxr : max n m < 2 ^ 61 := max_lt a2 b2
  have hq : InRange ((max n m).tdiv (Int.gcd n m)) := by
    rw [Int.tdiv_eq_ediv_of_nonneg hmax0]
    have := Int.ediv_nonneg hmax0 (show (0 : Int) ≤ Int.gcd n m by omega)
    have h2 := Int.ediv_le_self (Int.gcd n m : Int) hmax0
    constructor <;> omega
  rw [truncI, if_neg hg0', checked_ok hq, bind_ok, mulI, checked]
  have hd : (Int.gcd n m : Int) ∣ max n m := by
    rcases max_choice n m with h | h <;> rw [h]
    · exact Int.gcd_dvd_left ..
    · exact Int.gcd_dvd_right ..
  have e : (max n m).tdiv (Int.gcd n m) * min n m = Int.lcm n m := by
    rw [Int.tdiv_eq_ediv_of_nonneg hmax0]
    apply mul_left_cancel₀ hg0'
    rw [← mul_assoc, Int.mul_ediv_cancel' hd, max_mul_min]
    have := Int.gcd_mul_lcm n m
    have h4 : ((n * m).natAbs : Int) = n * m := Int.natAbs_of_nonneg (mul_nonneg h1 h2)
    rw [← h4, Int.natAbs_mul, ← this]
    push_cast; rfl
  rw [e]

/-- C17 fails for `lcm`: two zeros divide by zero, mixed signs give a negative
result. -/
theorem lcm_violated : (∀ fuel, lcm fuel 0 0 = .trap) ∧ lcm 10 (-2) 4 = .ok (-4) := by
  refine ⟨fun fuel => rfl, ?_⟩
  rw [lcm, gcd]
  have : gcdHalve 0 2 4 = .ok (1, 1, 2) := by
    rw [gcdHalve, dif_neg (by decide), dif_neg (by decide), gcdHalve, dif_pos (by decide)]; rfl
  rw [if_neg (by decide), if_neg (by decide), if_neg (by decide)]
  simp only [absI, checked_ok (show InRange |-2| by decide), bind_ok,
    checked_ok (show InRange |4| by decide)]
  rw [show |(-2 : Int)| = 2 by decide, show |(4 : Int)| = 4 by decide, this]
  decide

example : InRange 12 ∧ InRange (-18) ∧ Int.gcd 12 (-18) = 6 := by decide
example : InRange (Int.lcm 12 18) ∧ Int.lcm 12 18 = 36 := by decide

/-! ## C18: exponentiation -/

/-- C18: exact or overflow.  Missing: the three argument pairs excluded by the
last hypothesis (`power_violated`). -/
theorem power_exact_partial {base pow : Int} (hb : InRange base) (hp : 0 ≤ pow)
    (hex : ¬ (base = -2 ∧ pow = 61) ∧ ¬ (base = -2 ^ 61 ∧ pow ≤ 1)) :
    power base pow =
      if InRange (base ^ pow.toNat) then .ok (base ^ pow.toNat) else .overflow := by
  rw [power, if_neg (by omega)]
  by_cases h2 : base = 2
  · subst h2; rw [if_pos rfl, ashLeftI, one_mul]; rfl
  rw [if_neg h2]
  by_cases hneg : base < 0
  · rw [if_pos hneg]
    obtain ⟨b1, b2⟩ := hb
    by_cases hmin : base = -2 ^ 61
    · subst hmin
      rw [negI, checked_overflow (by decide), bind_overflow, if_neg]
      have h2 : 2 ≤ pow.toNat := by omega
      intro hr
      obtain ⟨r1, r2⟩ := hr
      have habs : ((2 : Int) ^ 61) ^ 2 ≤ (2 ^ 61) ^ pow.toNat := pow_le_pow_right₀ (by norm_num) h2
      rcases Nat.even_or_odd pow.toNat with he | ho
      · rw [he.neg_pow] at r2; norm_num at habs r2; omega
      · rw [ho.neg_pow] at r1; norm_num at habs r1; omega
    · have hnr : InRange (-base) := ⟨by omega, by omega⟩
      rw [negI, checked_ok hnr, bind_ok, powerNonneg_eq (by omega) hnr]
      have hodd : pow % 2 = 1 ↔ Odd pow.toNat := by
        rw [Nat.odd_iff]; omega
      by_cases ho : Odd pow.toNat
      · have hneq : base ^ pow.toNat = -((-base) ^ pow.toNat) := by rw [ho.neg_pow, neg_neg]
        rw [hneq]
        by_cases hr : InRange ((-base) ^ pow.toNat)
        · rw [checked_ok hr, bind_ok, if_pos (hodd.mpr ho), negI]; rfl
        · rw [checked_overflow hr, bind_overflow, if_neg]
          rintro ⟨r1, r2⟩
          have hpos : 0 ≤ (-base) ^ pow.toNat := pow_nonneg (by omega) _
          have heq : (-base) ^ pow.toNat = 2 ^ 61 := by
            by_contra hc
            exact hr ⟨by omega, by omega⟩
          -- a power equal to 2^61 has base 2 (61 is prime) or exponent 1
          have hnat : ((-base).toNat) ^ pow.toNat = 2 ^ 61 := by
            have : (((-base).toNat ^ pow.toNat : Nat) : Int) = ((2 ^ 61 : Nat) : Int) := by
              push_cast
              rw [Int.toNat_of_nonneg (by omega), heq]; norm_num
            exact_mod_cast this
          have hpne : pow.toNat ≠ 0 := by
            intro h0; rw [h0, pow_zero] at hnat; norm_num at hnat
          have hdvd : (-base).toNat ∣ 2 ^ 61 := by
            rw [← hnat]; exact dvd_pow_self _ hpne
          obtain ⟨k, hk, hbk⟩ := (Nat.dvd_prime_pow Nat.prime_two).mp hdvd
          rw [hbk, ← pow_mul] at hnat
          have hkp : k * pow.toNat = 61 := Nat.pow_right_injective (le_refl 2) hnat
          have h61 : Nat.Prime 61 := by norm_num
          have hk' : k = 1 ∨ k = 61 := (Nat.dvd_prime h61).mp ⟨_, hkp.symm⟩
          rcases hk' with h | h
          · subst h
            apply hex.1
            constructor <;> omega
          · subst h
            norm_num at hbk
            omega
      · have he : Even pow.toNat := Nat.not_odd_iff_even.mp ho
        rw [he.neg_pow]
        by_cases hr : InRange (base ^ pow.toNat)
        · rw [checked_ok hr, bind_ok, if_neg (fun h => ho (hodd.mp h)), if_pos hr]
        · rw [checked_overflow hr, bind_overflow, if_neg hr]
  · rw [if_neg hneg, powerNonneg_eq (by omega) hb]; rfl

/-- C18 fails at the excluded pairs: overflow although the power is
representable. -/
theorem power_violated :
    (power (-2) 61 = .overflow ∧ InRange ((-2) ^ 61)) ∧
    (power (-2 ^ 61) 1 = .overflow ∧ InRange ((-2 ^ 61) ^ 1)) ∧
    (power (-2 ^ 61) 0 = .overflow ∧ InRange ((-2 ^ 61) ^ 0)) := by
  refine ⟨⟨?_, by decide⟩, ⟨by decide, by decide⟩, ⟨by decide, by decide⟩⟩
  decide

example : InRange ((-3) ^ 38) ∧ ¬ InRange (3 ^ 39) := by decide

/-! ## C19: bit operations -/

/-- C19, `logior` of any number of integers. -/
theorem logior_exact (xs : List Int) (h : ∀ x ∈ xs, InRange x) :
    ∃ r, InRange r ∧ logior (xs.map tag) = tag r ∧ ∀ i, bit r i = xs.any (bit · i) := by
  have gen : ∀ (xs : List Int) (a : Int), InRange a → (∀ x ∈ xs, InRange x) →
      ∃ r, InRange r ∧ (xs.map tag).foldl binaryLogior (tag a) = tag r ∧
        ∀ i, bit r i = (bit a i || xs.any (bit · i)) := by
    intro xs
    induction xs with
    | nil => intro a ha _; exact ⟨a, ha, rfl, by simp⟩
    | cons x xs ih =>
      intro a ha hx
      obtain ⟨b, hb, e, hbits⟩ := logior_tag ha (hx x (by simp))
      obtain ⟨r, hr, e2, hbits2⟩ := ih b hb (fun y hy => hx y (by simp [hy]))
      refine ⟨r, hr, by simpa [e] using e2, fun i => ?_⟩
      rw [hbits2, hbits, List.any_cons, Bool.or_assoc]
  obtain ⟨r, hr, e, hbits⟩ := gen xs 0 (inRange_small 0) h
  refine ⟨r, hr, e, fun i => ?_⟩
  rw [hbits]
  have : bit 0 i = false := by simp [bit]
  rw [this, Bool.false_or]

/-- C19, `logand` of any number of integers. -/
theorem logand_exact (xs : List Int) (h : ∀ x ∈ xs, InRange x) :
    ∃ r, InRange r ∧ logand (xs.map tag) = tag r ∧ ∀ i, bit r i = xs.all (bit · i) := by
  have gen : ∀ (xs : List Int) (a : Int), InRange a → (∀ x ∈ xs, InRange x) →
      ∃ r, InRange r ∧ (xs.map tag).foldl binaryLogand (tag a) = tag r ∧
        ∀ i, bit r i = (bit a i && xs.all (bit · i)) := by
    intro xs
    induction xs with
    | nil => intro a ha _; exact ⟨a, ha, rfl, by simp⟩
    | cons x xs ih =>
      intro a ha hx
      obtain ⟨b, hb, e, hbits⟩ := logand_tag ha (hx x (by simp))
      obtain ⟨r, hr, e2, hbits2⟩ := ih b hb (fun y hy => hx y (by simp [hy]))
      refine ⟨r, hr, by simpa [e] using e2, fun i => ?_⟩
      rw [hbits2, hbits, List.all_cons, Bool.and_assoc]
  obtain ⟨r, hr, e, hbits⟩ := gen xs (-1) (inRange_small (-1)) h
  refine ⟨r, hr, e, fun i => ?_⟩
  rw [hbits]
  have : bit (-1) i = true := by
    unfold bit
    have : (-1 : Int) / 2 ^ i = -1 := by
      rw [Int.ediv_eq_iff_of_pos (by positivity)]
      have : (1 : Int) ≤ 2 ^ i := one_le_pow₀ (by norm_num)
      constructor <;> omega
    rw [this]; rfl
  rw [this, Bool.true_and]

/-- C19, `logxor` of any number of integers. -/
theorem logxor_exact (xs : List Int) (h : ∀ x ∈ xs, InRange x) :
    ∃ r, InRange r ∧ logxor (xs.map tag) = tag r ∧
      ∀ i, bit r i = xs.foldr (fun x b => bit x i ^^ b) false := by
  have gen : ∀ (xs : List Int) (a : Int), InRange a → (∀ x ∈ xs, InRange x) →
      ∃ r, InRange r ∧ (xs.map tag).foldl binaryLogxor (tag a) = tag r ∧
        ∀ i, bit r i = (bit a i ^^ xs.foldr (fun x b => bit x i ^^ b) false) := by
    intro xs
    induction xs with
    | nil => intro a ha _; exact ⟨a, ha, rfl, by simp⟩
    | cons x xs ih =>
      intro a ha hx
      obtain ⟨b, hb, e, hbits⟩ := logxor_tag ha (hx x (by simp))
      obtain ⟨r, hr, e2, hbits2⟩ := ih b hb (fun y hy => hx y (by simp [hy]))
      refine ⟨r, hr, by simpa [e] using e2, fun i => ?_⟩
      rw [hbits2, hbits, List.foldr_cons, Bool.xor_assoc]
  obtain ⟨r, hr, e, hbits⟩ := gen xs 0 (inRange_small 0) h
  refine ⟨r, hr, e, fun i => ?_⟩
  rw [hbits]
  have : bit 0 i = false := by simp [bit]
  rw [this, Bool.false_xor]

/-- C19, `lognot`: flips every bit. -/
theorem lognot_exact {a : Int} (ha : InRange a) :
    ∃ r, InRange r ∧ lognot (tag a) = tag r ∧ r = -a - 1 ∧ ∀ i, bit r i = !bit a i := by
  have hr : InRange (-a - 1) := by obtain ⟨h1, h2⟩ := ha; constructor <;> omega
  refine ⟨-a - 1, hr, lognot_tag ha, rfl, fun i => ?_⟩
  unfold bit
  have hp : (0 : Int) < 2 ^ i := by positivity
  have e : (-a - 1) / 2 ^ i = -(a / 2 ^ i) - 1 := by
    have h1 := Int.mul_ediv_add_emod a (2 ^ i)
    have h2 := Int.emod_nonneg a hp.ne'
    have h3 := Int.emod_lt_of_pos a hp
    rw [Int.ediv_eq_iff_of_pos hp]
    constructor <;> nlinarith
  rw [e]
  rcases Int.emod_two_eq (a / 2 ^ i) with h | h
  · have : (-(a / 2 ^ i) - 1) % 2 = 1 := by omega
    simp [h, this]
  · have : (-(a / 2 ^ i) - 1) % 2 = 0 := by omega
    simp [h, this]

/-- C19, `ash`: multiplication by a power of two (exact or overflow), or floor
division by one.  Missing: a shift count of `$minimum-integer`. -/
theorem ash_exact_partial {a s : Int} (ha : InRange a) (hs : InRange s) (hm : s ≠ -2 ^ 61) :
    ash (tag a) (tag s) =
      if 0 ≤ s then
        if InRange (a * 2 ^ s.toNat) then .ok (tag (a * 2 ^ s.toNat)) else .overflow
      else .ok (tag ⌊(a : ℚ) / 2 ^ (-s).toNat⌋) := by
  rw [ash, ltI_tag hs (inRange_small 0)]
  by_cases h : s < 0
  · have hn : InRange (-s) := by obtain ⟨h1, h2⟩ := hs; constructor <;> omega
    simp only [h, decide_true, if_true]
    rw [negative_tag hs, if_pos hn, bind_ok, ashRight_tag ha hn (by omega), if_neg (by omega)]
    congr 2
    have hp : (0 : Int) < 2 ^ (-s).toNat := by positivity
    have := floor_unique (X := a) (Y := 2 ^ (-s).toNat) (q := a / 2 ^ (-s).toNat)
      (r := a % 2 ^ (-s).toNat) (by have := Int.mul_ediv_add_emod a (2 ^ (-s).toNat); linarith)
      (fun _ => ⟨Int.emod_nonneg _ hp.ne', Int.emod_lt_of_pos _ hp⟩) (by omega) hp.ne'
    rw [← this]
    push_cast; rfl
  · simp only [h, decide_false, Bool.false_eq_true, if_false]
    rw [ashLeft_tag ha hs (by omega)]
    rw [if_pos (show 0 ≤ s by omega)]

/-- `ash(x, $minimum-integer)` signals overflow although the result is 0. -/
theorem ash_violated : ash (tag 5) (tag (-2 ^ 61)) = .overflow := by decide

/-- C19, `logbit?`.  Missing: bit numbers of 62 and more, where the shift of the
mask is undefined (`logbit_violated`). -/
theorem logbit_exact_partial {i a : Int} (ha : InRange a) (h0 : 0 ≤ i) (h1 : i < 62) :
    logbit (tag i) (tag a) = .ok (bit a i.toNat) :=
  logbit_tag ha h0 h1

theorem logbit_violated : logbit (tag 62) (tag (-1)) = .poison ∧ bit (-1) 62 = true := by decide

/-- C19, `logbit-deposit`.  Missing: bit numbers of 61 (the sign) and more. -/
theorem logbit_deposit_exact_partial {z : Bool} {i a : Int} (ha : InRange a) (h0 : 0 ≤ i)
    (h1 : i < 61) :
    ∃ r, InRange r ∧ logbitDeposit z (tag i) (tag a) = .ok (tag r) ∧
      ∀ j, bit r j = if j = i.toNat then z else bit a j :=
  logbitDeposit_tag ha h0 h1

/-- C19, `bit-field-extract`.  Missing: fields of 62 or more bits, and fields
that reach beyond the top bit of a negative integer
(`bit_field_extract_violated`). -/
theorem bit_field_extract_exact_partial {o z a : Int} (ha : InRange a) (ho : 0 ≤ o) (hz : 0 ≤ z)
    (hz' : z ≤ 61) (h : o + z ≤ 62 ∨ (0 ≤ a ∧ o < 64)) :
    ∃ r, InRange r ∧ bitFieldExtract (tag o) (tag z) (tag a) = .ok (tag r) ∧
      ∀ j, bit r j = (decide (j < z.toNat) && bit a (o.toNat + j)) :=
  bitFieldExtract_tag ha ho hz hz' h

/-- `bit-field-extract(61, 2, -1)` is 1 instead of 3, and a field of 62 bits is
undefined. -/
theorem bit_field_extract_violated :
    bitFieldExtract (tag 61) (tag 2) (tag (-1)) = .ok (tag 1) ∧
    bitFieldExtract (tag 0) (tag 62) (tag 5) = .poison := by decide

/-- C19, `bit-field-deposit`.  Missing: fields with bits beyond the given size,
and fields that include the sign bit (`bit_field_deposit_violated`). -/
theorem bit_field_deposit_exact_partial {f o z a : Int} (hf : InRange f) (ha : InRange a)
    (ho : 0 ≤ o) (hz : 0 ≤ z) (h : o + z ≤ 61) (hf0 : 0 ≤ f) (hf1 : f < 2 ^ z.toNat) :
    ∃ r, InRange r ∧ bitFieldDeposit (tag f) (tag o) (tag z) (tag a) = .ok (tag r) ∧
      ∀ j, bit r j = if o.toNat ≤ j ∧ j < o.toNat + z.toNat then bit f (j - o.toNat)
        else bit a j :=
  bitFieldDeposit_tag hf ha ho hz h hf0 hf1

/-- `bit-field-deposit(-1, 0, 4, 0)` is -1 instead of 15: the field is not
masked to its size. -/
theorem bit_field_deposit_violated :
    bitFieldDeposit (tag (-1)) (tag 0) (tag 4) (tag 0) = .ok (tag (-1)) := by decide

example : bitFieldExtract (tag 4) (tag 8) (tag 0x1234) = .ok (tag 0x23) := by decide
example : bitFieldDeposit (tag 5) (tag 4) (tag 3) (tag (-1)) = .ok (tag (-33)) := by decide
example : logxor [tag 12, tag (-10)] = tag (-6) := by decide
example : ash (tag (-7)) (tag (-1)) = .ok (tag (-4)) := by decide

/-! ## C35: logical shift -/

/-- C35: `lsh` shifts the 62-bit two's complement pattern, filling with zeros
and discarding what leaves the word, without ever signalling overflow.
Missing: a shift count of `$minimum-integer`. -/
theorem lsh_exact_partial {a s : Int} (ha : InRange a) (hs : InRange s) (hm : s ≠ -2 ^ 61) :
    ∃ r, InRange r ∧ lsh (tag a) (tag s) = .ok (tag r) ∧
      (0 ≤ s → (2 : Int) ^ 62 ∣ a * 2 ^ s.toNat - r) ∧
      (s < 0 → r = a % 2 ^ 62 / 2 ^ (-s).toNat) := by
  rw [lsh, ltI_tag hs (inRange_small 0)]
  by_cases h : s < 0
  · have hn : InRange (-s) := by obtain ⟨h1, h2⟩ := hs; constructor <;> omega
    simp only [h, decide_true, if_true]
    rw [negative_tag hs, if_pos hn, bind_ok, lshRight_tag ha hn (by omega)]
    refine ⟨_, ?_, rfl, by omega, fun _ => rfl⟩
    have hm0 := Int.emod_nonneg a (show (2 ^ 62 : Int) ≠ 0 by norm_num)
    have hm1 := Int.emod_lt_of_pos a (show (0 : Int) < 2 ^ 62 by norm_num)
    have hp : (2 : Int) ^ 1 ≤ 2 ^ (-s).toNat := pow_le_pow_right₀ (by norm_num) (by omega)
    have h3 := Int.ediv_nonneg hm0 (show (0 : Int) ≤ 2 ^ (-s).toNat by positivity)
    refine ⟨by omega, ?_⟩
    apply Int.ediv_lt_of_lt_mul (by positivity)
    nlinarith
  · simp only [h, decide_false, Bool.false_eq_true, if_false]
    rw [lshLeft_tag ha hs (by omega)]
    refine ⟨_, ?_, rfl, fun _ => ?_, fun h' => h'.elim⟩
    · have h1 := Int.le_bmod (x := a * 2 ^ s.toNat) (m := 2 ^ 62) (by norm_num)
      have h2 := Int.bmod_lt (x := a * 2 ^ s.toNat) (m := 2 ^ 62) (by norm_num)
      norm_num at h1 h2
      constructor <;> norm_num <;> omega
    · have := Int.bdiv_add_bmod (a * 2 ^ s.toNat) (2 ^ 62)
      refine ⟨(a * 2 ^ s.toNat).bdiv (2 ^ 62), ?_⟩
      push_cast at this ⊢
      linarith

example : lsh (tag (-1)) (tag (-1)) = .ok (tag (2 ^ 61 - 1)) ∧
    lsh (tag (2 ^ 60 + 1)) (tag 1) = .ok (tag (-2 ^ 61 + 2)) := by decide

end Verif.Integer
