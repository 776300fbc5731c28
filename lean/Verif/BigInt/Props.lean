/-
The integers of the `big-integers` library: arithmetic with 128 bits.
-/
import Verif.BigInt.Div
import Verif.Integer.Props

namespace Verif.BigInt
open Verif.Integer Verif.MachineWord

/-! ## C100: sums, differences, comparison -/

/-- C100, `+`.  The sum if it has 128 bits and is not among the `2^64` least numbers; an overflow if it does not have 128
    bits; and no other result.  Missing: the least sums, see `plus_violated`. -/
theorem plus_partial {a b : Int} (ha : In128 a) (hb : In128 b) :
    (In128 (a + b) → -2 ^ 127 + 2 ^ 64 ≤ a + b → plus (big a) (big b) = .ok (big (a + b))) ∧
    (¬ In128 (a + b) → plus (big a) (big b) = .overflow) ∧
    (plus (big a) (big b) = .ok (big (a + b)) ∨ plus (big a) (big b) = .overflow) := by
  have e := plus_eq ha hb
  refine ⟨?_, ?_, ?_⟩
  · intro h1 h2
    rw [e, if_pos]
    right
    refine ⟨?_, h1⟩
    obtain ⟨a1, a2⟩ := ha
    obtain ⟨b1, b2⟩ := hb
    obtain ⟨c1, c2⟩ := h1
    constructor <;> omega
  · intro h1
    rw [e, if_neg]
    rintro (⟨⟨a1, a2⟩, ⟨b1, b2⟩⟩ | h2)
    · exact h1 (by constructor <;> omega)
    · exact h1 h2.2
  · rw [e]
    split
    · exact .inl rfl
    · exact .inr rfl

/-- The sum `-2^127` has 128 bits, but there is an overflow: the high words are added before the carry. -/
theorem plus_violated : plus (big (-2 ^ 127 + 1)) (big (-1)) = .overflow ∧ In128 (-2 ^ 127 + 1 + -1) := by decide +kernel

/-- C100, `-`.  Missing: the `2^64` greatest differences, see `minus_violated`. -/
theorem minus_partial {a b : Int} (ha : In128 a) (hb : In128 b) :
    (In128 (a - b) → a - b < 2 ^ 127 - 2 ^ 64 → minus (big a) (big b) = .ok (big (a - b))) ∧
    (¬ In128 (a - b) → minus (big a) (big b) = .overflow) ∧
    (minus (big a) (big b) = .ok (big (a - b)) ∨ minus (big a) (big b) = .overflow) := by
  have e := minus_eq ha hb
  refine ⟨?_, ?_, ?_⟩
  · intro h1 h2
    rw [e, if_pos]
    right
    refine ⟨?_, h1⟩
    obtain ⟨a1, a2⟩ := ha
    obtain ⟨b1, b2⟩ := hb
    obtain ⟨c1, c2⟩ := h1
    constructor <;> omega
  · intro h1
    rw [e, if_neg]
    rintro (⟨⟨a1, a2⟩, ⟨b1, b2⟩⟩ | h2)
    · exact h1 (by constructor <;> omega)
    · exact h1 h2.2
  · rw [e]
    split
    · exact .inl rfl
    · exact .inr rfl

theorem minus_violated : minus (big (2 ^ 127 - 2 ^ 64)) (big (-2 ^ 64 + 1)) = .overflow ∧ In128 (2 ^ 127 - 2 ^ 64 - (-2 ^ 64 + 1)) := by decide +kernel

/-- C100, `negative` and `abs`: the number, or an overflow if it does not have 128 bits. -/
theorem negate_exact {a : Int} (ha : In128 a) :
    negate (big a) = (if In128 (-a) then .ok (big (-a)) else .overflow) ∧
    absolute (big a) = (if In128 |a| then .ok (big |a|) else .overflow) := ⟨negate_eq ha, absolute_eq ha⟩

/-- C100, comparison and the predicates; and different numbers are different integers. -/
theorem comparison_exact {a b : Int} (ha : In128 a) (hb : In128 b) :
    (equal (big a) (big b) = true ↔ a = b) ∧ (less (big a) (big b) = true ↔ a < b) ∧ (big a = big b ↔ a = b) ∧
    ((big a).isZero = true ↔ a = 0) ∧ ((big a).isPositive = true ↔ 0 < a) ∧ ((big a).isNegative = true ↔ a < 0) ∧
    ((big a).isOdd = true ↔ a % 2 = 1) := by
  refine ⟨?_, ?_, ⟨big_injective ha hb, fun h => by rw [h]⟩, ?_, ?_, ?_, ?_⟩
  · rw [equal_eq ha hb, decide_eq_true_eq]
  · rw [less_eq ha hb, decide_eq_true_eq]
  · rw [isZero_big, decide_eq_true_eq]
  · rw [isPositive_big ha, decide_eq_true_eq]
  · rw [isNegative_big ha, decide_eq_true_eq]
  · rw [isOdd_eq ha, decide_eq_true_eq]

/-- Every result is the integer of a number: a double integer is never one of 62 bits. -/
theorem results_canonical (l h : Word) : interpret l h = .ok (big (sval l h)) ∧ In128 (sval l h) := ⟨interpret_eq l h, sval_in128 l h⟩

/-- Non-vacuity: numbers of 62 bits whose sum has more, and one of more whose difference has less. -/
example : plus (big (2 ^ 61 - 1)) (big 5) = .ok (.double (2 ^ 61 + 4) 0) ∧ minus (big (2 ^ 61 + 4)) (big 5) = .ok (.small (tag (2 ^ 61 - 1))) ∧
    plus (big (2 ^ 64 - 1)) (big 1) = .ok (.double 0 1) ∧ negate (big (-2 ^ 61)) = .ok (big (2 ^ 61)) ∧
    absolute (big (-3 * 2 ^ 64)) = .ok (big (3 * 2 ^ 64)) ∧ negate (big (-2 ^ 127)) = .overflow ∧
    less (big (-2 ^ 100)) (big 3) = true ∧ (big (2 ^ 64 + 1)).isOdd = true := by decide +kernel

/-! ## C101: products -/

/-- C101.  The product if it has 128 bits, provided it is not zero with a negative factor; and every result is the
    product up to a multiple of `2^128`.  Missing: see `times_violated`. -/
theorem times_partial {a b : Int} (ha : In128 a) (hb : In128 b) :
    (In128 (a * b) → (a * b ≠ 0 ∨ (0 ≤ a ∧ 0 ≤ b) ∨ (InRange a ∧ InRange b)) → times (big a) (big b) = .ok (big (a * b))) ∧
    (times (big a) (big b) = .ok (big (wrap (a * b))) ∨ times (big a) (big b) = .overflow) := by
  by_cases hn : InRange a ∧ InRange b
  · have e := times_small hn.1 hn.2
    refine ⟨fun _ _ => e, .inl ?_⟩
    have hi : In128 (a * b) := by
      obtain ⟨⟨a1, a2⟩, ⟨b1, b2⟩⟩ := hn
      constructor <;> nlinarith
    rw [e, wrap_of hi]
  · have e := times_words ha hb hn
    constructor
    · intro h1 h2
      rw [e, wrap_of h1, if_neg]
      simp only [ne_eq, not_not]
      rcases h2 with h2 | h2 | h2
      · rcases lt_trichotomy a 0 with h3 | h3 | h3
        · rcases lt_trichotomy b 0 with h4 | h4 | h4
          · have := mul_pos_of_neg_of_neg h3 h4
            simp [h3, h4]; omega
          · subst h4; simp at h2
          · have := mul_neg_of_neg_of_pos h3 h4
            simp [h3, show ¬ b < 0 by omega, this]
        · subst h3; simp at h2
        · rcases lt_trichotomy b 0 with h4 | h4 | h4
          · have := mul_neg_of_pos_of_neg h3 h4
            simp [h4, show ¬ a < 0 by omega, this]
          · subst h4; simp at h2
          · have := mul_pos h3 h4
            simp [show ¬ a < 0 by omega, show ¬ b < 0 by omega]; omega
      · have := mul_nonneg h2.1 h2.2
        simp [show ¬ a < 0 by omega, show ¬ b < 0 by omega]; omega
      · exact absurd h2 hn
    · rw [e]
      split
      · exact .inr rfl
      · exact .inl rfl

/-- Zero times a negative double integer is an overflow; a product of more than 128 bits can be a number, here 0. -/
theorem times_violated :
    times (big (-2 ^ 64)) (big 0) = .overflow ∧ In128 (-2 ^ 64 * 0) ∧
    times (big (2 ^ 64)) (big (2 ^ 64)) = .ok (big 0) ∧ ¬ In128 (2 ^ 64 * 2 ^ 64) := by decide +kernel

example : times (big (2 ^ 61 - 1)) (big (-2 ^ 61)) = .ok (big (-2 ^ 122 + 2 ^ 61)) ∧ times (big (-2 ^ 70)) (big (2 ^ 50)) = .ok (big (-2 ^ 120)) ∧
    times (big (2 ^ 100)) (big (2 ^ 27)) = .overflow ∧ times (big (2 ^ 61)) (big 1) = .ok (big (2 ^ 61)) := by decide +kernel

/-! ## C102: division -/

/-- The division of a number that is not negative by one between 1 and `2^31`. -/
theorem divide_small {n d : Int} (hn : 0 ≤ n) (hn' : In128 n) (hd : 0 < d) (hd' : d ≤ 2 ^ 31) : truncateDiv (big n) (big d) = .ok (big (n / d), big (n % d)) := by
  have hdr : InRange d := by constructor <;> omega
  have hm0 := Int.emod_nonneg n (show d ≠ 0 by omega)
  have hm1 := Int.emod_lt_of_pos n hd
  have hmr : InRange (n % d) := by constructor <;> omega
  rw [big_small hdr, big_small hmr]
  by_cases hr : InRange n
  · rw [big_small hr]
    obtain ⟨q, hq, e⟩ := truncate_exact hr hdr (by omega) (by omega)
    have hq' : q = n / d := by
      have h1 := truncate_unique n d (by omega)
      unfold IsTruncate at hq h1
      rw [hq, ← h1, Int.tdiv_eq_ediv_of_nonneg hn]
    have hr2 : n - q * d = n % d := by
      rw [hq']
      have := Int.mul_ediv_add_emod n d
      rw [mul_comm (n / d) d]; omega
    have hqr : InRange (n / d) := by
      have := Int.ediv_nonneg hn hd.le
      have := Int.ediv_le_self d hn
      obtain ⟨_, _⟩ := hr
      constructor <;> omega
    show smallResults (Integer.truncateDiv (tag n) (tag d)) = _
    rw [e, hr2, hq', big_small hqr]
    rfl
  · rw [big_double hr]
    rcases divideWords_eq hn hn' hr hd hdr with ⟨_, e⟩ | ⟨h, _⟩
    · have hq : In128 (n / d) := by
        have := Int.ediv_nonneg hn hd.le
        have := Int.ediv_le_self d hn
        obtain ⟨_, _⟩ := hn'
        constructor <;> omega
      show (divideWords (lowOf n) (highOf n) (tag d)).bind _ = _
      rw [e]
      show results (interpret (lowOf (n / d)) (highOf (n / d))) _ = _
      rw [interpret_of (sval_of hq)]
      rfl
    · omega

/-- C102, `truncate/`, `floor/` and `ceiling/` of a double integer that is positive by one between 1 and `2^31`.  Missing:
    other divisors and negative dividends, see `division_violated`. -/
theorem division_partial {n d : Int} (hn : 0 < n) (hn' : In128 n) (hnr : ¬ InRange n) (hd : 0 < d) (hd' : d ≤ 2 ^ 31) :
    truncateDiv (big n) (big d) = .ok (big ⌊(n : ℚ) / d⌋, big (n - ⌊(n : ℚ) / d⌋ * d)) ∧
    floorDiv (big n) (big d) = .ok (big ⌊(n : ℚ) / d⌋, big (n - ⌊(n : ℚ) / d⌋ * d)) ∧
    ceilingDiv (big n) (big d) = .ok (big ⌈(n : ℚ) / d⌉, big (n - ⌈(n : ℚ) / d⌉ * d)) := by
  have hdr : InRange d := by constructor <;> omega
  have hm0 := Int.emod_nonneg n (show d ≠ 0 by omega)
  have hm1 := Int.emod_lt_of_pos n hd
  have hmr : InRange (n % d) := by constructor <;> omega
  have hid := Int.mul_ediv_add_emod n d
  have hfl : ⌊(n : ℚ) / d⌋ = n / d := floor_unique (X := n) (Y := d) (q := n / d) (r := n % d) (by rw [mul_comm]; omega) (fun _ => ⟨hm0, hm1⟩) (fun h => by omega) (by omega)
  have hrem : n - n / d * d = n % d := by rw [mul_comm]; omega
  have hz : InRange (0 : Int) := by constructor <;> norm_num
  have hq0 := Int.ediv_nonneg hn.le hd.le
  have hq1 := Int.ediv_le_self d hn.le
  have hq : In128 (n / d) := by
    obtain ⟨_, _⟩ := hn'
    constructor <;> omega
  rw [hfl, hrem]
  have htr := divide_small hn.le hn' hd hd'
  have hpos := isPositive_big hn'
  have hneg := isNegative_big hn'
  refine ⟨htr, ?_⟩
  rcases divideWords_eq hn.le hn' hnr hd hdr with ⟨_, e⟩ | ⟨h, _⟩
  case inr => omega
  have hyn : (Big.small (tag d)).isNegative = false := by
    show ltI (tag d) (tag 0) = false
    rw [ltI_tag hdr hz]; simp; omega
  rw [big_double hnr] at hpos hneg
  rw [big_double hnr, big_small hdr]
  have hres : results (interpret (lowOf (n / d)) (highOf (n / d))) (.ok (.small (tag (n % d)))) = .ok (big (n / d), big (n % d)) := by
    rw [interpret_of (sval_of hq), big_small hmr]; rfl
  constructor
  · show (divideWords (lowOf n) (highOf n) (tag d)).bind _ = _
    rw [e]
    show (if (!eqI (tag (n % d)) (tag 0) && (if (Big.small (tag d)).isNegative then (Big.double (lowOf n) (highOf n)).isPositive else (Big.double (lowOf n) (highOf n)).isNegative)) = true then _ else _) = _
    rw [hyn, hneg, if_neg (by simp; omega)]
    exact hres
  · show (divideWords (lowOf n) (highOf n) (tag d)).bind _ = _
    rw [e]
    show (if (!eqI (tag (n % d)) (tag 0) && (if (Big.small (tag d)).isNegative then (Big.double (lowOf n) (highOf n)).isNegative else (Big.double (lowOf n) (highOf n)).isPositive)) = true then _ else _) = _
    rw [hyn, hpos, eqI_tag hmr hz]
    by_cases h0 : n % d = 0
    · have hce : ⌈(n : ℚ) / d⌉ = n / d := ceil_unique (X := n) (Y := d) (q := n / d) (r := 0) (by rw [mul_comm]; omega) (fun _ => ⟨by omega, by omega⟩) (fun h => by omega) (by omega)
      rw [if_neg (by simp [h0]), hce, hrem]
      exact hres
    · have hce : ⌈(n : ℚ) / d⌉ = n / d + 1 := ceil_unique (X := n) (Y := d) (q := n / d + 1) (r := n % d - d) (by rw [add_mul, mul_comm]; omega) (fun _ => ⟨by omega, by omega⟩) (fun h => by omega) (by omega)
      have hq2 : In128 (n / d + 1) := by
        have : n / d ≤ n / d * d := le_mul_of_one_le_right hq0 (by omega)
        rw [mul_comm] at this
        obtain ⟨_, _⟩ := hn'
        constructor <;> omega
      rw [if_pos (by simp [h0, hn]), hce, show n - (n / d + 1) * d = n % d - d by rw [add_mul, mul_comm]; omega]
      have hadd := addHigh (lowOf (n / d)) (highOf (n / d)) 1 0 (fun l h => results (interpret l h) (minus (.small (tag (n % d))) (.small (tag d))))
      have hw0 : InWord ((highOf (n / d)).toInt + (0 : Word).toInt) := by
        rw [show (0 : Word).toInt = 0 from rfl, Int.add_zero]; exact inWord_toInt _
      have hz1 : addO (highOf (n / d)) 0 = .ok (highOf (n / d)) := by
        rw [addO_eq, if_pos hw0, word_add_zero]
      rw [hz1, sval_of hq, show sval 1 0 = 1 from rfl, if_pos ⟨hw0, hq2⟩] at hadd
      refine Eq.trans hadd ?_
      rw [interpret_of (sval_of hq2), ← big_small hmr, ← big_small hdr, minus_eq (inRange_in128 hmr) (inRange_in128 hdr), if_pos (.inl ⟨hmr, hdr⟩)]
      rfl

/-- C102, a greater divisor: the quotient and the remainder, or an overflow. -/
theorem large_divisor_partial {n d : Int} (hn : 0 < n) (hn' : In128 n) (hnr : ¬ InRange n) (hd : 0 < d) (hd' : InRange d) :
    truncateDiv (big n) (big d) = .overflow ∨ truncateDiv (big n) (big d) = .ok (big (n / d), big (n % d)) := by
  have hm0 := Int.emod_nonneg n (show d ≠ 0 by omega)
  have hm1 := Int.emod_lt_of_pos n hd
  have hmr : InRange (n % d) := by obtain ⟨_, _⟩ := hd'; constructor <;> omega
  have hq : In128 (n / d) := by
    have := Int.ediv_nonneg hn.le hd.le
    have := Int.ediv_le_self d hn.le
    obtain ⟨_, _⟩ := hn'
    constructor <;> omega
  have hok : divideWords (lowOf n) (highOf n) (tag d) = .ok (lowOf (n / d), highOf (n / d), tag (n % d)) → truncateDiv (big n) (big d) = .ok (big (n / d), big (n % d)) := by
    intro e
    rw [big_double hnr, big_small hd', big_small hmr]
    show (divideWords (lowOf n) (highOf n) (tag d)).bind _ = _
    rw [e]
    show results (interpret (lowOf (n / d)) (highOf (n / d))) _ = _
    rw [interpret_of (sval_of hq)]
    rfl
  rcases divideWords_eq hn.le hn' hnr hd hd' with ⟨_, e⟩ | ⟨_, e | e⟩
  · exact .inr (hok e)
  · left
    rw [big_double hnr, big_small hd']
    show (divideWords (lowOf n) (highOf n) (tag d)).bind _ = _
    rw [e]; rfl
  · exact .inr (hok e)

/-- What the three functions yield for a number of 62 bits and a double integer. -/
theorem small_by_double {x y : Int} (hx : InRange x) (hy : In128 y) (hyr : ¬ InRange y) :
    truncateDiv (big x) (big y) = .ok (big 0, big x) ∧
    floorDiv (big x) (big y) = (if (x < 0) = (y < 0) then .ok (big 0, big x) else .ok (big (-1), big (x + y))) ∧
    (x ≠ 0 ∨ y < 0 → ceilingDiv (big x) (big y) = if (x < 0) = (y < 0) then .ok (big 1, big (x - y)) else .ok (big 0, big x)) := by
  have hz : InRange (0 : Int) := by constructor <;> norm_num
  have h1 : InRange (1 : Int) := by constructor <;> norm_num
  have hm1 : InRange (-1 : Int) := by constructor <;> norm_num
  have nx := isNegative_big (inRange_in128 hx)
  have ny := isNegative_big hy
  have hadd := plus_eq hy (inRange_in128 hx)
  have hsub := minus_eq (inRange_in128 hx) hy
  rw [big_small hx] at nx hadd hsub ⊢
  rw [big_double hyr] at ny hadd hsub ⊢
  rw [big_small hz, big_small h1, big_small hm1]
  have hiff : ((Big.small (tag x)).isNegative = (Big.double (lowOf y) (highOf y)).isNegative) ↔ ((x < 0) = (y < 0)) := by
    rw [nx, ny, Bool.eq_iff_iff, decide_eq_true_eq, decide_eq_true_eq, eq_iff_iff]
  obtain ⟨x1, x2⟩ := hx
  obtain ⟨y1, y2⟩ := hy
  refine ⟨rfl, ?_, fun hc => ?_⟩
  · show (if _ = _ then _ else _) = _
    by_cases hs : (x < 0) = (y < 0)
    · rw [if_pos (hiff.2 hs), if_pos hs]
    · rw [if_neg (fun h => hs (hiff.1 h)), if_neg hs, hadd, if_pos, Int.add_comm]
      · rfl
      · right
        simp only [eq_iff_iff] at hs
        constructor
        · constructor <;> omega
        · constructor <;> omega
  · show (if _ = _ then _ else _) = _
    by_cases hs : (x < 0) = (y < 0)
    · rw [if_pos (hiff.2 hs), if_pos hs, hsub, if_pos]
      · rfl
      · right
        simp only [eq_iff_iff] at hs
        constructor
        · constructor <;> omega
        · constructor <;> omega
    · rw [if_neg (fun h => hs (hiff.1 h)), if_neg hs]

/-- C102, a number of 62 bits by a double integer.  Missing: `-2^61` by `2^61` for `truncate/` and `ceiling/`, 0 by a
    negative number for `floor/`, 0 by a positive one for `ceiling/`. -/
theorem small_by_double_partial {x y : Int} (hx : InRange x) (hy : In128 y) (hyr : ¬ InRange y) :
    (¬ (x = -2 ^ 61 ∧ y = 2 ^ 61) → ∃ q, IsTruncate x y q ∧ truncateDiv (big x) (big y) = .ok (big q, big (x - q * y))) ∧
    (¬ (x = 0 ∧ y < 0) → floorDiv (big x) (big y) = .ok (big ⌊(x : ℚ) / y⌋, big (x - ⌊(x : ℚ) / y⌋ * y))) ∧
    (¬ (x = 0 ∧ 0 < y) ∧ ¬ (x = -2 ^ 61 ∧ y = 2 ^ 61) → ceilingDiv (big x) (big y) = .ok (big ⌈(x : ℚ) / y⌉, big (x - ⌈(x : ℚ) / y⌉ * y))) := by
  obtain ⟨e1, e2, e3⟩ := small_by_double hx hy hyr
  have hy0 : y ≠ 0 := by rintro rfl; exact hyr (by constructor <;> norm_num)
  obtain ⟨x1, x2⟩ := hx
  obtain ⟨y1, y2⟩ := hy
  simp only [InRange] at hyr
  refine ⟨fun hc => ⟨0, ?_, ?_⟩, fun hc => ?_, fun hc => ?_⟩
  · have h0 : x.tdiv y = 0 := by
      have h1 : (x.tdiv y).natAbs = x.natAbs / y.natAbs := Int.natAbs_tdiv x y
      have h2 : x.natAbs / y.natAbs = 0 := Nat.div_eq_of_lt (by omega)
      rw [h2] at h1
      omega
    rw [← h0]
    exact truncate_unique x y hy0
  · rw [e1, zero_mul, sub_zero]
  · rw [e2]
    by_cases hs : (x < 0) = (y < 0)
    · have hfl : ⌊(x : ℚ) / y⌋ = 0 := floor_unique (X := x) (Y := y) (q := 0) (r := x) (by ring)
        (by simp only [eq_iff_iff] at hs; omega) (by simp only [eq_iff_iff] at hs; omega) hy0
      rw [if_pos hs, hfl, zero_mul, sub_zero]
    · have hfl : ⌊(x : ℚ) / y⌋ = -1 := floor_unique (X := x) (Y := y) (q := -1) (r := x + y) (by ring)
        (by simp only [eq_iff_iff] at hs; omega) (by simp only [eq_iff_iff] at hs; omega) hy0
      rw [if_neg hs, hfl, show x - -1 * y = x + y by ring]
  · rw [e3 (by omega)]
    by_cases hs : (x < 0) = (y < 0)
    · have hfl : ⌈(x : ℚ) / y⌉ = 1 := ceil_unique (X := x) (Y := y) (q := 1) (r := x - y) (by ring)
        (by simp only [eq_iff_iff] at hs; omega) (by simp only [eq_iff_iff] at hs; omega) hy0
      rw [if_pos hs, hfl, one_mul]
    · have hfl : ⌈(x : ℚ) / y⌉ = 0 := ceil_unique (X := x) (Y := y) (q := 0) (r := x) (by ring)
        (by simp only [eq_iff_iff] at hs; omega) (by simp only [eq_iff_iff] at hs; omega) hy0
      rw [if_neg hs, hfl, zero_mul, sub_zero]

/-- C102 fails: a negative dividend, a negative divisor, a divisor above `2^31`, two double integers, and a small number by
    a double integer. -/
theorem division_violated :
    truncateDiv (big (-3 * 2 ^ 64)) (big 2) = .ok (big (-3 * 2 ^ 63 - 2 ^ 32), big 0) ∧
    truncateDiv (big (2 ^ 63)) (big (-1)) = .ok (big (2 ^ 63), big 0) ∧
    truncateDiv (big (2 ^ 64 * (2 ^ 31))) (big (2 ^ 31 + 1)) = .overflow ∧
    truncateDiv (big (2 ^ 64)) (big (2 ^ 64)) = .error ∧
    truncateDiv (big (-2 ^ 61)) (big (2 ^ 61)) = .ok (big 0, big (-2 ^ 61)) ∧
    ceilingDiv (big (-2 ^ 61)) (big (2 ^ 61)) = .ok (big 0, big (-2 ^ 61)) ∧
    floorDiv (big 0) (big (-2 ^ 64)) = .ok (big (-1), big (-2 ^ 64)) ∧
    ceilingDiv (big 0) (big (2 ^ 64)) = .ok (big 1, big (-2 ^ 64)) := by decide +kernel

example : truncateDiv (big (10 ^ 30)) (big 7) = .ok (big (10 ^ 30 / 7), big (10 ^ 30 % 7)) ∧
    ceilingDiv (big (10 ^ 30)) (big 7) = .ok (big (10 ^ 30 / 7 + 1), big (10 ^ 30 % 7 - 7)) ∧
    floorDiv (big (-5)) (big (2 ^ 70)) = .ok (big (-1), big (2 ^ 70 - 5)) := by decide +kernel

/-! ## C103: shifts and bits -/

/-- The value of the count. -/
theorem raw_min {s : Int} (hs : InRange s) : raw (tag s) = s := raw_tag hs

/-- C103, `ash` to the left: the product with the power of two, or an overflow if it does not have 128 bits. -/
theorem ash_left_exact {a : Int} {s : Nat} (ha : In128 a) (hs : (s : Int) < 2 ^ 61) :
    ash (big a) (tag s) = if In128 (a * 2 ^ s) then .ok (big (a * 2 ^ s)) else .overflow := by
  have hr : InRange (s : Int) := by constructor <;> omega
  have hz : InRange (0 : Int) := by constructor <;> norm_num
  unfold ash
  rw [ltI_tag hr hz, if_neg (by simp), raw_tag hr, low_big ha, high_big ha]
  have e := sval_of ha
  by_cases h1 : s < 64
  · rw [show (min (s : Int) 128).toNat = s by omega, ashLeft_low h1, e]
  · by_cases h2 : s < 128
    · rw [show (min (s : Int) 128).toNat = s by omega, ashLeft_high (by omega) h2, e]
    · rw [show (min (s : Int) 128).toNat = 128 by omega, ashLeft_over (s := s) (by omega), e]

/-- C103, `ash` to the right: the quotient rounded down.  Missing: the count `-2^61`. -/
theorem ash_right_partial {a : Int} {s : Nat} (ha : In128 a) (h0 : 0 < s) (hs : (s : Int) < 2 ^ 61) :
    ash (big a) (tag (-s)) = .ok (big ⌊(a : ℚ) / 2 ^ s⌋) := by
  have hr : InRange (-(s : Int)) := by constructor <;> omega
  have hr' : InRange (s : Int) := by constructor <;> omega
  have hz : InRange (0 : Int) := by constructor <;> norm_num
  have hfl : ⌊(a : ℚ) / 2 ^ s⌋ = a / 2 ^ s := by
    have := Rat.floor_intCast_div_natCast a (2 ^ s)
    push_cast at this
    exact this
  unfold ash
  rw [ltI_tag hr hz, if_pos (by simp; omega), negative_tag hr, neg_neg, if_pos hr']
  show ashRight _ _ _ (min (raw (tag s)) 128).toNat = _
  rw [raw_tag hr', low_big ha, high_big ha, isNegative_big ha, hfl]
  have e := sval_of ha
  by_cases h1 : s < 64
  · rw [show (min (s : Int) 128).toNat = s by omega, ashRight_low h0 h1, e]
  · by_cases h2 : s < 128
    · rw [show (min (s : Int) 128).toNat = s by omega, ashRight_high (by omega) h2, e]
    · rw [show (min (s : Int) 128).toNat = 128 by omega]
      have := ashRight_over (l := lowOf a) (h := highOf a) (s := s) (by omega)
      rw [e] at this
      exact this

theorem ash_violated : ash (big 5) (tag (-2 ^ 61)) = .overflow := by decide +kernel

/-- C103, `lsh`: the shift of the representation with 128 bits.  Missing: the count `-2^61`. -/
theorem lsh_partial {a : Int} {s : Nat} (ha : In128 a) (hs : (s : Int) < 2 ^ 61) :
    lsh (big a) (tag s) = .ok (big (wrap (a * 2 ^ s))) ∧
    (0 < s → lsh (big a) (tag (-s)) = .ok (big (wrap (a % 2 ^ 128 / 2 ^ s)))) := by
  have hr : InRange (-(s : Int)) := by constructor <;> omega
  have hr' : InRange (s : Int) := by constructor <;> omega
  have hz : InRange (0 : Int) := by constructor <;> norm_num
  have e := sval_of ha
  constructor
  · unfold lsh
    rw [ltI_tag hr' hz, if_neg (by simp), raw_tag hr', low_big ha, high_big ha]
    by_cases h1 : s < 64
    · rw [show (min (s : Int) 128).toNat = s by omega, lshLeft_low h1, e]
    · by_cases h2 : s < 128
      · rw [show (min (s : Int) 128).toNat = s by omega, lshLeft_high (by omega) h2, e]
      · rw [show (min (s : Int) 128).toNat = 128 by omega, lshLeft_over (s := s) (by omega), e]
  · intro h0
    unfold lsh
    rw [ltI_tag hr hz, if_pos (by simp; omega), negative_tag hr, neg_neg, if_pos hr']
    show lshRight _ _ (min (raw (tag s)) 128).toNat = _
    rw [raw_tag hr', low_big ha, high_big ha]
    by_cases h1 : s < 64
    · rw [show (min (s : Int) 128).toNat = s by omega, lshRight_low h1, e]
    · by_cases h2 : s < 128
      · rw [show (min (s : Int) 128).toNat = s by omega, lshRight_high (by omega) h2, e]
      · rw [show (min (s : Int) 128).toNat = 128 by omega, lshRight_over (s := s) (by omega), e]

example : ash (big 3) (tag 100) = .ok (big (3 * 2 ^ 100)) ∧ ash (big (-3 * 2 ^ 100)) (tag (-99)) = .ok (big (-6)) ∧
    ash (big (-(2 ^ 70 + 1))) (tag (-6)) = .ok (big (-2 ^ 64 - 1)) ∧ ash (big 2) (tag 126) = .overflow ∧
    lsh (big (-1)) (tag (-120)) = .ok (big 255) ∧ lsh (big 3) (tag 127) = .ok (big (-2 ^ 127)) := by decide +kernel

/-- C103, the logical functions: bit by bit, of two's complement without end. -/
theorem logical_exact {a b : Int} (ha : In128 a) (hb : In128 b) :
    (∃ r, In128 r ∧ logior (big a) (big b) = .ok (big r) ∧ ∀ i, bit r i = (bit a i || bit b i)) ∧
    (∃ r, In128 r ∧ logand (big a) (big b) = .ok (big r) ∧ ∀ i, bit r i = (bit a i && bit b i)) ∧
    (∃ r, In128 r ∧ logxor (big a) (big b) = .ok (big r) ∧ ∀ i, bit r i = (bit a i ^^ bit b i)) ∧
    lognot (big a) = .ok (big (-a - 1)) := by
  refine ⟨?_, ?_, ?_, ?_⟩
  · exact logical_words (fun x y i _ => by simp) (fun h1 h2 => by
      obtain ⟨r, hr, he, hbit⟩ := logior_tag h1 h2
      exact ⟨r, hr, he, hbit⟩) ha hb
  · exact logical_words (fun x y i _ => by simp) (fun h1 h2 => by
      obtain ⟨r, hr, he, hbit⟩ := logand_tag h1 h2
      exact ⟨r, hr, he, hbit⟩) ha hb
  · exact logical_words (fun x y i _ => by simp) (fun h1 h2 => by
      obtain ⟨r, hr, he, hbit⟩ := logxor_tag h1 h2
      exact ⟨r, hr, he, hbit⟩) ha hb
  · by_cases hr : InRange a
    · have : InRange (-a - 1) := by obtain ⟨_, _⟩ := hr; constructor <;> omega
      rw [big_small hr, big_small this, ← lognot_tag hr]; rfl
    · rw [big_double hr]
      show interpret (~~~ (lowOf a)) (~~~ (highOf a)) = _
      rw [interpret_of (sval_not _ _), sval_of ha]
      congr 2
      omega

/-- C103, `logbit?` of a double integer. -/
theorem logbit_exact {a : Int} {i : Nat} (ha : In128 a) : logbit i (lowOf a) (highOf a) = .ok (bit a i) := by
  have hneg : (Big.double (lowOf a) (highOf a)).isNegative = decide (a < 0) := by
    show (highOf a).slt 0 = _
    rw [slt_zero, toInt_highOf ha]
    congr 1
    apply propext; omega
  have hb := bit_sval (lowOf a) (highOf a) i
  rw [sval_of ha] at hb
  have hw : ∀ (w : Word) (k : Nat), k < 64 → logbitW k w = .ok (w.getLsbD k) := fun w k hk => by
    unfold logbitW shl
    rw [if_pos (by omega)]
    show Out.ok _ = _
    rw [show ((k : Int)).toNat = k from rfl, and_shl_one w k hk]
  unfold logbit
  rw [hb, hneg, if_neg (by omega)]
  by_cases h1 : i < 64
  · rw [if_pos (by omega), if_pos h1, hw _ _ h1]
  · rw [if_neg (by omega), if_neg h1]
    by_cases h2 : i < 128
    · rw [if_pos (by omega), if_pos h2, show (i : Int) - 64 = ((i - 64 : Nat) : Int) by omega, hw _ _ (by omega)]
    · rw [if_neg (by omega), if_neg h2]

example : logior (big (2 ^ 100)) (big 5) = .ok (big (2 ^ 100 + 5)) ∧ logand (big (-1)) (big (2 ^ 61)) = .ok (big (2 ^ 61)) ∧
    logxor (big (2 ^ 100 + 3)) (big (2 ^ 100 + 1)) = .ok (big 2) ∧ lognot (big (2 ^ 61)) = .ok (big (-2 ^ 61 - 1)) ∧
    logbit 100 (lowOf (2 ^ 100)) (highOf (2 ^ 100)) = .ok true ∧ logbit 1000 (lowOf (-2 ^ 100)) (highOf (-2 ^ 100)) = .ok true := by decide +kernel

end Verif.BigInt
