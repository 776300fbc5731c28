/-
Powers, digits and lengths in the `big-integers` library.
-/
import Verif.BigInt.Props

namespace Verif.BigInt
open Verif.Integer Verif.MachineWord

/-! ## C104: powers -/

theorem times_nonneg {a b : Int} (ha : 0 ≤ a) (hb : 0 ≤ b) (ha' : In128 a) (hb' : In128 b) (h : In128 (a * b)) : times (big a) (big b) = .ok (big (a * b)) :=
  (times_partial ha' hb').1 h (.inr (.inl ⟨ha, hb⟩))

theorem in128_le {a b : Int} (h0 : 0 ≤ a) (h : a ≤ b) (hb : In128 b) : In128 a := by
  obtain ⟨_, _⟩ := hb
  constructor <;> omega

/-- The loop of `^`. -/
theorem powerLoop_eq (k : Nat) : ∀ (b x : Int) (p : Nat), 1 ≤ b → 1 ≤ x → p < k → In128 b → In128 (b ^ p * x) →
    powerLoop k (big b) p (big x) = .ok (big (b ^ p * x)) := by
  induction k with
  | zero => intro b x p _ _ h; omega
  | succ k ih =>
    intro b x p hb hx hp hbi hi
    unfold powerLoop
    by_cases h0 : p = 0
    · subst h0
      rw [if_pos rfl, pow_zero, one_mul]
    · rw [if_neg h0]
      have hbp : ∀ q : Nat, 1 ≤ b ^ q := fun q => one_le_pow₀ hb
      -- the next base
      have hbase : ∃ b' : Int, 1 ≤ b' ∧ In128 b' ∧ (1 < p → b' = b * b) ∧ (if p > 1 then times (big b) (big b) else .ok (big b) : Out Big) = .ok (big b') := by
        by_cases h1 : p > 1
        · have h2 : b * b ≤ b ^ p * x := by
            have h3 : b ^ p = b * b * b ^ (p - 2) := by
              rw [← pow_two, ← pow_add]; congr 1; omega
            have h4 : b * b * 1 ≤ b * b * b ^ (p - 2) := mul_le_mul_of_nonneg_left (hbp _) (by positivity)
            have h5 : b ^ p * 1 ≤ b ^ p * x := mul_le_mul_of_nonneg_left hx (by positivity)
            rw [← h3] at h4
            omega
          have h6 := in128_le (by positivity) h2 hi
          refine ⟨b * b, by nlinarith, h6, fun _ => rfl, ?_⟩
          rw [if_pos h1, times_nonneg (by omega) (by omega) hbi hbi h6]
        · exact ⟨b, hb, hbi, fun h => by omega, by rw [if_neg h1]⟩
      obtain ⟨b', hb1, hb2, hb3, hb4⟩ := hbase
      have hx' : ∃ x' : Int, 1 ≤ x' ∧ x' = (if p % 2 = 1 then b * x else x) ∧ (if p % 2 = 1 then times (big b) (big x) else .ok (big x) : Out Big) = .ok (big x') := by
        by_cases h1 : p % 2 = 1
        · have h2 : b * x ≤ b ^ p * x := by
            have h3 : b ^ p = b * b ^ (p - 1) := by rw [← pow_succ']; congr 1; omega
            have h4 : b * 1 ≤ b * b ^ (p - 1) := mul_le_mul_of_nonneg_left (hbp _) (by omega)
            exact mul_le_mul_of_nonneg_right (by omega) (by omega)
          have h6 := in128_le (by positivity) h2 hi
          have h7 : x ≤ b ^ p * x := by
            have := mul_le_mul_of_nonneg_right (hbp p) (show (0 : Int) ≤ x by omega)
            omega
          refine ⟨b * x, by nlinarith, by rw [if_pos h1], ?_⟩
          rw [if_pos h1, times_nonneg (by omega) (by omega) hbi (in128_le (by omega) h7 hi) h6]
        · exact ⟨x, hx, by rw [if_neg h1], by rw [if_neg h1]⟩
      obtain ⟨x', hx1, hx2, hx3⟩ := hx'
      have hval : b' ^ (p / 2) * x' = b ^ p * x := by
        by_cases h1 : 1 < p
        · rw [hb3 h1, hx2, ← pow_two, ← pow_mul]
          by_cases h2 : p % 2 = 1
          · rw [if_pos h2, ← mul_assoc, ← pow_succ]; congr 2; omega
          · rw [if_neg h2]; congr 2; omega
        · have h2 : p = 1 := by omega
          subst h2
          rw [hx2]; simp
      rw [hb4, hx3]
      show powerLoop k (big b') (p / 2) (big x') = _
      rw [ih b' x' (p / 2) hb1 hx1 (by omega) hb2 (by rw [hval]; exact hi), hval]

/-- The loop with the base 0. -/
theorem powerLoop_zero (k : Nat) : ∀ (x : Int) (p : Nat), (x = 0 ∨ x = 1) → p < k →
    powerLoop k (big 0) p (big x) = .ok (big (0 ^ p * x)) := by
  have h00 : In128 (0 : Int) := by constructor <;> norm_num
  induction k with
  | zero => intro x p _ h; omega
  | succ k ih =>
    intro x p hx hp
    have hxi : In128 x := by rcases hx with h | h <;> subst h <;> constructor <;> norm_num
    unfold powerLoop
    by_cases h0 : p = 0
    · subst h0
      rw [if_pos rfl, pow_zero, one_mul]
    · rw [if_neg h0]
      have hb : (if p > 1 then times (big 0) (big 0) else .ok (big 0) : Out Big) = .ok (big 0) := by
        by_cases h1 : p > 1
        · rw [if_pos h1, times_nonneg (by omega) (by omega) h00 h00 (by simpa using h00), mul_zero]
        · rw [if_neg h1]
      rw [hb]
      by_cases h1 : p % 2 = 1
      · rw [if_pos h1, times_nonneg (by omega) (by omega) h00 hxi (by simpa using h00), zero_mul]
        show powerLoop k (big 0) (p / 2) (big 0) = _
        rw [ih 0 (p / 2) (.inl rfl) (by omega), mul_zero, zero_pow h0, zero_mul]
      · rw [if_neg h1]
        show powerLoop k (big 0) (p / 2) (big x) = _
        rw [ih x (p / 2) hx (by omega), zero_pow h0, zero_pow (by omega)]

/-- `^` of a base that is not negative. -/
theorem powerUp_eq {b : Int} {p : Nat} (hb : 0 ≤ b) (hbi : In128 b) (hi : In128 (b ^ p)) : powerUp (big b) p = .ok (big (b ^ p)) := by
  have h2i : In128 (2 : Int) := by constructor <;> norm_num
  have h1i : In128 (1 : Int) := by constructor <;> norm_num
  have h00 : In128 (0 : Int) := by constructor <;> norm_num
  have h2 : big 2 = .small (tag 2) := big_small (by constructor <;> norm_num)
  have h1 : big 1 = .small (tag 1) := big_small (by constructor <;> norm_num)
  unfold powerUp
  rw [← h2, ← h1, equal_eq hbi h2i]
  by_cases hb2 : b = 2
  · subst hb2
    rw [if_pos (by simp)]
    have hp : p < 127 := by
      by_contra hc
      have : (2 : Int) ^ 127 ≤ 2 ^ p := by exact_mod_cast Nat.pow_le_pow_right (by omega) (by omega)
      obtain ⟨_, _⟩ := hi
      omega
    rw [ash_left_exact h1i (by omega), one_mul, if_pos hi]
  · rw [if_neg (by simpa using hb2)]
    by_cases h0 : b = 0
    · subst h0
      have hb' : (if p > 1 then times (big 0) (big 0) else .ok (big 0) : Out Big) = .ok (big 0) := by
        by_cases h1 : p > 1
        · rw [if_pos h1, times_nonneg (by omega) (by omega) h00 h00 (by simpa using h00), mul_zero]
        · rw [if_neg h1]
      rw [hb']
      show powerLoop (p + 1) (big 0) (p / 2) (if p % 2 = 1 then big 0 else big 1) = _
      by_cases hp : p % 2 = 1
      · rw [if_pos hp, powerLoop_zero _ 0 _ (.inl rfl) (by omega), mul_zero, zero_pow (by omega)]
      · rw [if_neg hp, powerLoop_zero _ 1 _ (.inr rfl) (by omega), mul_one]
        by_cases hp0 : p = 0
        · subst hp0; rfl
        · rw [zero_pow hp0, zero_pow (by omega)]
    · have hb1 : 1 ≤ b := by omega
      have hbp : ∀ q : Nat, 1 ≤ b ^ q := fun q => one_le_pow₀ hb1
      by_cases hp1 : p > 1
      · have h2 : b * b ≤ b ^ p := by
          have h3 : b ^ p = b * b * b ^ (p - 2) := by
            rw [← pow_two, ← pow_add]; congr 1; omega
          have h4 : b * b * 1 ≤ b * b * b ^ (p - 2) := mul_le_mul_of_nonneg_left (hbp _) (by positivity)
          rw [← h3] at h4
          omega
        have h6 := in128_le (by positivity) h2 hi
        rw [if_pos hp1, times_nonneg hb hb hbi hbi h6]
        show powerLoop (p + 1) (big (b * b)) (p / 2) (if p % 2 = 1 then big b else big 1) = _
        by_cases hp : p % 2 = 1
        · have hv : (b * b) ^ (p / 2) * b = b ^ p := by
            rw [← pow_two, ← pow_mul, ← pow_succ]; congr 1; omega
          rw [if_pos hp, powerLoop_eq _ _ _ _ (by nlinarith) hb1 (by omega) h6 (by rw [hv]; exact hi), hv]
        · have hv : (b * b) ^ (p / 2) * 1 = b ^ p := by
            rw [mul_one, ← pow_two, ← pow_mul]; congr 1; omega
          rw [if_neg hp, powerLoop_eq _ _ _ _ (by nlinarith) (by omega) (by omega) h6 (by rw [hv]; exact hi), hv]
      · rw [if_neg hp1]
        show powerLoop (p + 1) (big b) (p / 2) (if p % 2 = 1 then big b else big 1) = _
        have hp2 : p / 2 = 0 := by omega
        rw [hp2]
        by_cases hp : p % 2 = 1
        · have : p = 1 := by omega
          subst this
          rw [if_pos (by omega), pow_one]; rfl
        · have : p = 0 := by omega
          subst this
          rw [if_neg (by omega), pow_zero]; rfl

/-- C104.  `base ^ power`, if the power of the magnitude of the base has 128 bits.  Missing: see `power_violated`. -/
theorem power_partial {b : Int} {p : Nat} (hb : In128 b) (hb' : b ≠ -2 ^ 127) (hi : In128 (|b| ^ p)) : power (big b) p = .ok (big (b ^ p)) := by
  have h2i : In128 (2 : Int) := by constructor <;> norm_num
  have h2 : big 2 = .small (tag 2) := big_small (by constructor <;> norm_num)
  by_cases hneg : b < 0
  · rw [abs_of_neg hneg] at hi
    have hnb : In128 (-b) := by obtain ⟨_, _⟩ := hb; constructor <;> omega
    have hneg1 := (negate_exact hb).1
    rw [if_pos hnb] at hneg1
    unfold power
    rw [← h2, equal_eq hb h2i, if_neg (by simp; omega), isNegative_big hb, if_pos (by simpa using hneg)]
    by_cases hp : p % 2 = 1
    · rw [if_pos hp, hneg1]
      show (powerUp (big (-b)) p).bind _ = _
      rw [powerUp_eq (by omega) hnb hi]
      show negate (big ((-b) ^ p)) = _
      have hodd : (-b) ^ p = -(b ^ p) := Odd.neg_pow (Nat.odd_iff.2 hp) b
      have h1 := (negate_exact hi).1
      have h3 : 0 ≤ (-b) ^ p := pow_nonneg (by omega) p
      rw [h1, hodd, neg_neg]
      rw [hodd] at hi h3
      rw [if_pos (by obtain ⟨_, _⟩ := hi; constructor <;> omega)]
    · rw [if_neg hp, hneg1]
      show powerUp (big (-b)) p = _
      rw [powerUp_eq (by omega) hnb hi]
      rw [Even.neg_pow (Nat.even_iff.2 (by omega)) b]
  · rw [abs_of_nonneg (by omega)] at hi
    unfold power
    by_cases hb2 : b = 2
    · have := powerUp_eq (b := b) (by omega) hb hi
      unfold powerUp at this
      rw [← h2, equal_eq hb h2i, if_pos (by simpa using hb2)] at this ⊢
      exact this
    · rw [← h2, equal_eq hb h2i, if_neg (by simpa using hb2), isNegative_big hb, if_neg (by simpa using hneg), powerUp_eq (by omega) hb hi]

/-- C104 fails: a power of more than 128 bits can be a number, here 0; `(-2)^127` has 128 bits but its magnitude has not;
    and `(-2^127)^0`. -/
theorem power_violated :
    power (big 4) 64 = .ok (big 0) ∧ ¬ In128 (4 ^ 64) ∧
    power (big (-2)) 127 = .overflow ∧ In128 ((-2) ^ 127) ∧
    power (big (-2 ^ 127)) 0 = .overflow := by decide +kernel

example : power (big (-3)) 79 = .ok (big (-(3 ^ 79))) ∧ power (big 10) 38 = .ok (big (10 ^ 38)) ∧ power (big 2) 126 = .ok (big (2 ^ 126)) ∧
    power (big 0) 0 = .ok (big 1) ∧ In128 (|(-3 : Int)| ^ 79) := by decide +kernel

/-! ## C105: digits and length -/

theorem processInteger_eq (k : Nat) : ∀ n : Int, 0 ≤ n → In128 n → n < 10 ^ k → 0 < k →
    ∃ ds : List Nat, processInteger k (big n) = .ok (ds.map fun (d : Nat) => big d) ∧ ((ds.foldl (fun a d => 10 * a + d) 0 : Nat) : Int) = n ∧
      (∀ d ∈ ds, d < 10) ∧ (0 < n → ds.head? ≠ some 0) ∧ (n = 0 → ds = [0]) := by
  induction k with
  | zero => intro n _ _ _ h; omega
  | succ k ih =>
    intro n hn hi hlt _
    have h10 : big 10 = .small (tag 10) := big_small (by constructor <;> norm_num)
    have hdiv := divide_small hn hi (d := 10) (by norm_num) (by norm_num)
    have hq : In128 (n / 10) := by obtain ⟨_, _⟩ := hi; constructor <;> omega
    unfold processInteger
    rw [← h10, hdiv]
    simp only [Bind.bind, Out.bind]
    rw [isZero_big]
    by_cases h0 : n / 10 = 0
    · refine ⟨[n.toNat], ?_, ?_, ?_, ?_, ?_⟩
      · rw [if_pos (by simpa using h0)]
        show Out.ok [big (n % 10)] = _
        rw [show n % 10 = ((n.toNat : Nat) : Int) by omega]; rfl
      · simp; omega
      · simp; omega
      · simp only [List.head?_cons, ne_eq, Option.some.injEq]; omega
      · intro h; simp [h]
    · have hk : 0 < k := by
        rcases Nat.eq_zero_or_pos k with rfl | h
        · norm_num at hlt; omega
        · exact h
      obtain ⟨ds, e1, e2, e3, e4, _⟩ := ih (n / 10) (by omega) hq (by rw [pow_succ] at hlt; omega) hk
      refine ⟨ds ++ [(n % 10).toNat], ?_, ?_, ?_, ?_, ?_⟩
      · rw [if_neg (by simpa using h0), e1]
        show Out.ok (_ ++ [big (n % 10)]) = _
        rw [List.map_append, show n % 10 = (((n % 10).toNat : Nat) : Int) by omega]; rfl
      · rw [List.foldl_append]
        simp only [List.foldl_cons, List.foldl_nil]
        push_cast
        rw [e2]; omega
      · intro d hd
        rcases List.mem_append.1 hd with h | h
        · exact e3 d h
        · simp at h; omega
      · intro _
        have := e4 (by omega)
        cases ds with
        | nil => simp at e2; omega
        | cons d ds => simpa using this
      · intro h; omega

/-- C105, `number-to-string` of a positive double integer: digits that denote the number, the first of which is not 0.
    Missing: negative numbers, see `number_to_string_violated`. -/
theorem number_to_string_partial {n : Int} (h0 : 0 < n) (hi : In128 n) (hr : ¬ InRange n) :
    ∃ ds : List Nat, numberToString 39 (lowOf n) (highOf n) = .ok (false, ds.map fun (d : Nat) => big d) ∧
      ((ds.foldl (fun a d => 10 * a + d) 0 : Nat) : Int) = n ∧ (∀ d ∈ ds, d < 10) ∧ ds.head? ≠ some 0 := by
  have hneg := isNegative_big hi
  rw [big_double hr] at hneg
  obtain ⟨ds, e1, e2, e3, e4, _⟩ := processInteger_eq 39 n h0.le hi (by obtain ⟨_, h⟩ := hi; norm_num at h ⊢; omega) (by norm_num)
  refine ⟨ds, ?_, e2, e3, e4 h0⟩
  unfold numberToString
  rw [hneg, if_neg (by simp; omega), ← big_double hr, e1]
  rfl

/-- The digits of `-5 * 2^64` are those of another number. -/
theorem number_to_string_violated :
    numberToString 39 (lowOf (-92233720368547758080)) (highOf (-92233720368547758080)) = .ok (true, ([9, 2, 2, 3, 3, 7, 2, 0, 4, 1, 1, 4, 9, 7, 4, 3, 1, 0, 4, 0] : List Int).map big) := by decide +kernel

/-- C105, `integer-length` of a double integer of at most 65 bits: the number of bits of its magnitude.  Missing: greater
    numbers, see `integer_length_violated`. -/
theorem integer_length_partial {n : Int} (hr : ¬ InRange n) (h0 : -2 ^ 64 ≤ n) (h1 : n < 2 ^ 64) :
    2 ^ (integerLength (lowOf n) (highOf n) - 1) ≤ (if n < 0 then -1 - n else n) ∧ (if n < 0 then -1 - n else n) < 2 ^ integerLength (lowOf n) (highOf n) := by
  have hi : In128 n := by constructor <;> omega
  have hneg := isNegative_big hi
  rw [big_double hr] at hneg
  simp only [InRange] at hr
  have hl := toNat_lowOf n
  have hh := toInt_highOf hi
  unfold integerLength
  dsimp only
  rw [hneg]
  have key : ∀ w : Word, 0 < w.toNat → (2 : Int) ^ (64 - countHighZeros w - 1) ≤ (w.toNat : Int) ∧ (w.toNat : Int) < 2 ^ (64 - countHighZeros w) := fun w hw => by
    have hlt := w.isLt
    have h63 : Nat.log2 w.toNat < 64 := (Nat.log2_lt (by omega)).2 hlt
    unfold countHighZeros
    rw [if_neg (by omega), show 64 - (63 - Nat.log2 w.toNat) = Nat.log2 w.toNat + 1 by omega, Nat.add_sub_cancel]
    have a1 := Nat.log2_self_le (n := w.toNat) (by omega)
    have a2 := Nat.lt_log2_self (n := w.toNat)
    exact ⟨by exact_mod_cast a1, by exact_mod_cast a2⟩
  by_cases hn : n < 0
  · have e1 : (~~~ (highOf n)) = 0 := by
      have h3 := sval_not (lowOf n) (highOf n)
      rw [sval_of hi] at h3
      apply BitVec.eq_of_toInt_eq
      have := (~~~ (lowOf n)).isLt
      unfold sval at h3
      rw [show (0 : Word).toInt = 0 from rfl]
      omega
    have e2 : ((~~~ (lowOf n)).toNat : Int) = -1 - n := by
      have h3 := sval_not (lowOf n) (highOf n)
      rw [sval_of hi, e1] at h3
      unfold sval at h3
      rw [show (0 : Word).toInt = 0 from rfl] at h3
      omega
    rw [if_pos hn]
    simp only [hn, decide_true, if_true, e1]
    rw [← e2]
    exact key _ (by omega)
  · have e1 : highOf n = 0 := by
      apply BitVec.eq_of_toInt_eq
      rw [hh, show (0 : Word).toInt = 0 from rfl]; omega
    have e2 : ((lowOf n).toNat : Int) = n := by rw [hl]; omega
    rw [if_neg hn]
    simp only [hn, decide_false, if_false, e1, Bool.false_eq_true, if_true]
    have := key (lowOf n) (by omega)
    rw [e2] at this
    exact this

/-- The length of `2^64` is 65. -/
theorem integer_length_violated : integerLength (lowOf (2 ^ 64)) (highOf (2 ^ 64)) = 2 := by decide +kernel

example : integerLength (lowOf (2 ^ 63)) (highOf (2 ^ 63)) = 64 ∧ integerLength (lowOf (-2 ^ 61 - 1)) (highOf (-2 ^ 61 - 1)) = 62 ∧
    numberToString 39 (lowOf (10 ^ 20)) (highOf (10 ^ 20)) = .ok (false, big 1 :: List.replicate 20 (big 0)) := by decide +kernel

end Verif.BigInt
