import Verif.Range.Lemmas
/-
Helper lemmas about the intersection of ranges.
-/
namespace Verif.Range

/-! ### membership -/

theorem contains_finite {f b n x : Int} :
    Contains (.finite f b n) x ↔ ∃ k : Int, 0 ≤ k ∧ k < n ∧ x = f + k * b := by
  constructor
  · rintro ⟨k, hk⟩
    simp only [element, missing] at hk
    split at hk
    · rename_i h
      injection hk with hk
      exact ⟨k, h.1, h.2, hk.symm⟩
    · cases hk
  · rintro ⟨k, h0, hn, rfl⟩
    exact ⟨k.toNat, by simp [element, h0, hn]⟩

theorem contains_finite_pos {f b n x : Int} (hb : 0 < b) :
    Contains (.finite f b n) x ↔ (f ≤ x ∧ x ≤ f + b * (n - 1)) ∧ b ∣ x - f := by
  rw [contains_finite]
  constructor
  · rintro ⟨k, h0, hn, rfl⟩
    have h1 : 0 ≤ k * b := mul_nonneg h0 hb.le
    have h2 : k * b ≤ (n - 1) * b := mul_le_mul_of_nonneg_right (by omega) hb.le
    have h3 : (n - 1) * b = b * (n - 1) := mul_comm _ _
    exact ⟨⟨by omega, by omega⟩, ⟨k, by ring⟩⟩
  · rintro ⟨⟨h1, h2⟩, k, hk⟩
    refine ⟨k, ?_, ?_, by rw [mul_comm]; omega⟩
    · by_contra h
      have : b * k ≤ b * (-1) := mul_le_mul_of_nonneg_left (by omega) hb.le
      omega
    · by_contra h
      have : b * (n - 1 + 1) ≤ b * k := mul_le_mul_of_nonneg_left (by omega) hb.le
      have : b * (n - 1 + 1) = b * (n - 1) + b := by ring
      omega

theorem contains_finite_neg {f b n x : Int} (hb : b < 0) :
    Contains (.finite f b n) x ↔ (f + b * (n - 1) ≤ x ∧ x ≤ f) ∧ -b ∣ x - (f + b * (n - 1)) := by
  rw [contains_finite]
  have := @contains_finite_pos (f + b * (n - 1)) (-b) n x (by omega)
  have e : f + b * (n - 1) + -b * (n - 1) = f := by ring
  rw [e] at this
  rw [← this, contains_finite]
  constructor
  · rintro ⟨k, h0, hn, rfl⟩
    exact ⟨n - 1 - k, by omega, by omega, by ring⟩
  · rintro ⟨k, h0, hn, rfl⟩
    exact ⟨n - 1 - k, by omega, by omega, by ring⟩

theorem contains_infinite {f b x : Int} :
    Contains (.infinite f b) x ↔ ∃ k : Int, 0 ≤ k ∧ x = f + k * b := by
  constructor
  · rintro ⟨k, hk⟩
    simp only [element, Out.ok.injEq] at hk
    exact ⟨k, by omega, hk.symm⟩
  · rintro ⟨k, h0, rfl⟩
    exact ⟨k.toNat, by simp [element, h0]⟩

theorem contains_infinite_pos {f b x : Int} (hb : 0 < b) :
    Contains (.infinite f b) x ↔ f ≤ x ∧ b ∣ x - f := by
  rw [contains_infinite]
  constructor
  · rintro ⟨k, h0, rfl⟩
    have h1 : 0 ≤ k * b := mul_nonneg h0 hb.le
    exact ⟨by omega, ⟨k, by ring⟩⟩
  · rintro ⟨h1, k, hk⟩
    refine ⟨k, ?_, by rw [mul_comm]; omega⟩
    by_contra h
    have : b * k ≤ b * (-1) := mul_le_mul_of_nonneg_left (by omega) hb.le
    omega

theorem contains_infinite_neg {f b x : Int} (hb : b < 0) :
    Contains (.infinite f b) x ↔ x ≤ f ∧ b ∣ x - f := by
  rw [contains_infinite]
  constructor
  · rintro ⟨k, h0, rfl⟩
    have h1 : k * b ≤ 0 := mul_nonpos_of_nonneg_of_nonpos h0 hb.le
    exact ⟨by omega, ⟨k, by ring⟩⟩
  · rintro ⟨h1, k, hk⟩
    refine ⟨k, ?_, by rw [mul_comm]; omega⟩
    by_contra h
    have : b * (-1) ≤ b * k := mul_le_mul_of_nonpos_left (by omega) hb.le
    omega

theorem not_contains_empty (x : Int) : ¬ Contains .empty x := by
  rintro ⟨k, hk⟩; simp [element, missing] at hk

theorem contains_constant {f : Int} {s : Option Int} {x : Int} (hp : Proper (.constant f s))
    (hh : NotHollow (.constant f s)) : Contains (.constant f s) x ↔ x = f := by
  constructor
  · rintro ⟨k, hk⟩
    cases s with
    | none => simp [element] at hk; exact hk.symm
    | some n =>
      simp only [element, missing] at hk
      split at hk
      · injection hk with hk; exact hk.symm
      · cases hk
  · rintro rfl
    refine ⟨0, ?_⟩
    cases s with
    | none => simp [element]
    | some n =>
      have := hp n rfl
      have h0 : n ≠ 0 := by rintro rfl; exact hh x rfl
      simp [element, show 0 < n by omega]

/-! ### least common multiples -/

theorem lcmI_pos {n m : Int} (hn : 0 < n) (hm : 0 < m) : lcmI n m = (Int.lcm n m : Int) := by
  have hmax : 0 < max n m := lt_max_of_lt_left hn
  have key : ∀ g : Int, g = (Int.gcd n m : Int) → (truncDiv (max n m) g).1 * min n m = (Int.lcm n m : Int) := by
    rintro g rfl
    have hg0 : (0 : Int) < Int.gcd n m := by
      have : 0 < Int.gcd n m := Int.gcd_pos_iff.mpr (.inl hn.ne')
      omega
    have hd : (Int.gcd n m : Int) ∣ max n m := by
      rcases max_choice n m with h | h <;> rw [h]
      · exact Int.gcd_dvd_left ..
      · exact Int.gcd_dvd_right ..
    obtain ⟨q, hq⟩ := hd
    have h1 : (truncDiv (max n m) (Int.gcd n m)).1 = q := by
      unfold truncDiv
      rw [hq]; exact Int.mul_tdiv_cancel_left _ hg0.ne'
    rw [h1]
    have h2 : (Int.gcd n m : Int) * Int.lcm n m = n * m := by
      have := Int.gcd_mul_lcm n m
      have h3 : ((Int.gcd n m * Int.lcm n m : Nat) : Int) = ((n * m).natAbs : Int) := by rw [this, Int.natAbs_mul]
      have h4 : 0 < n * m := mul_pos hn hm
      push_cast at h3
      rw [h3, abs_of_pos h4]
    have h3 : max n m * min n m = n * m := by
      rw [mul_comm]; exact min_mul_max n m
    rw [hq] at h3
    have h4 : (Int.gcd n m : Int) * (q * min n m) = Int.gcd n m * Int.lcm n m := by
      rw [h2, ← h3]; ring
    exact mul_left_cancel₀ hg0.ne' h4
  unfold lcmI
  apply key
  unfold gcdI
  rw [if_neg hn.ne', if_neg hm.ne']
  split
  · rename_i h; subst h
    rw [Int.gcd_self]; omega
  · rfl

theorem lcmI_dvd {n m x : Int} (hn : 0 < n) (hm : 0 < m) : lcmI n m ∣ x ↔ n ∣ x ∧ m ∣ x := by
  rw [lcmI_pos hn hm]
  constructor
  · intro h
    exact ⟨(Int.dvd_lcm_left n m).trans h, (Int.dvd_lcm_right n m).trans h⟩
  · rintro ⟨h1, h2⟩
    exact Int.coe_lcm_dvd h1 h2

theorem lcmI_gt {n m : Int} (hn : 0 < n) (hm : 0 < m) : 0 < lcmI n m := by
  rw [lcmI_pos hn hm]
  have := Int.lcm_pos (m := n) (n := m) hn.ne' hm.ne'
  omega

/-! ### the first common term -/

/-- `x` is a term of both progressions, in either direction. -/
def Common (f1 b1 f2 b2 x : Int) : Prop := b1 ∣ x - f1 ∧ b2 ∣ x - f2

theorem search_some {b1 f2 b2 : Int} {rounds : Nat} {n m : Int} (h : search b1 f2 b2 rounds n = some m) :
    ∃ i : Nat, i < rounds ∧ m = n + i * b1 ∧ b2 ∣ m - f2 ∧ ∀ j : Nat, j < i → ¬ b2 ∣ n + j * b1 - f2 := by
  induction rounds generalizing n with
  | zero => simp [search] at h
  | succ rounds ih =>
    unfold search at h
    split at h
    · rename_i h0
      injection h with h
      subst h
      exact ⟨0, by omega, by simp, Int.dvd_of_tmod_eq_zero h0, by omega⟩
    · rename_i h0
      obtain ⟨i, h1, h2, h3, h4⟩ := ih h
      refine ⟨i + 1, by omega, by rw [h2]; push_cast; ring, h3, ?_⟩
      intro j hj
      cases j with
      | zero => simpa using fun hd => h0 (Int.tmod_eq_zero_of_dvd hd)
      | succ j =>
        have := h4 j (by omega)
        intro hd
        apply this
        have e : n + ((j + 1 : Nat) : Int) * b1 - f2 = n + b1 + j * b1 - f2 := by push_cast; ring
        rwa [e] at hd

theorem search_none {b1 f2 b2 : Int} {rounds : Nat} {n : Int} (h : search b1 f2 b2 rounds n = none) :
    ∀ j : Nat, j < rounds → ¬ b2 ∣ n + j * b1 - f2 := by
  induction rounds generalizing n with
  | zero => intro j hj; omega
  | succ rounds ih =>
    unfold search at h
    split at h
    · cases h
    · rename_i h0
      intro j hj
      cases j with
      | zero => simpa using fun hd => h0 (Int.tmod_eq_zero_of_dvd hd)
      | succ j =>
        have := ih h j (by omega)
        intro hd
        apply this
        have e : n + ((j + 1 : Nat) : Int) * b1 - f2 = n + b1 + j * b1 - f2 := by push_cast; ring
        rwa [e] at hd

/-- A common term from `f1` on can be reached, at the same place modulo `b2`, within `b2` steps. -/
theorem common_reach {f1 b1 f2 b2 x : Int} (h1 : 0 < b1) (h2 : 0 < b2) (hx : f1 ≤ x) (hc : Common f1 b1 f2 b2 x) :
    ∃ j : Nat, (j : Int) < b2 ∧ f1 + j * b1 ≤ x ∧ b2 ∣ f1 + j * b1 - f2 := by
  obtain ⟨⟨i, hi⟩, hd⟩ := hc
  have hi0 : 0 ≤ i := by
    by_contra h
    have : b1 * i ≤ b1 * (-1) := mul_le_mul_of_nonneg_left (by omega) h1.le
    omega
  have hm0 := Int.emod_nonneg i h2.ne'
  have hm1 := Int.emod_lt_of_pos i h2
  have hm2 := Int.emod_add_mul_ediv i b2
  have hq : 0 ≤ i / b2 := Int.ediv_nonneg hi0 h2.le
  refine ⟨(i % b2).toNat, by omega, ?_, ?_⟩
  · have e : ((i % b2).toNat : Int) = i % b2 := by omega
    rw [e]
    have : i % b2 ≤ i := by have := mul_nonneg h2.le hq; omega
    have := mul_le_mul_of_nonneg_left this h1.le
    have : b1 * (i % b2) = i % b2 * b1 := mul_comm _ _
    omega
  · have e : ((i % b2).toNat : Int) = i % b2 := by omega
    rw [e]
    have h3 : f1 + i % b2 * b1 - f2 = (x - f2) - b2 * (i / b2 * b1) := by
      have h4 : x = f1 + b1 * i := by omega
      have h5 : b1 * i = i % b2 * b1 + b2 * (i / b2 * b1) := by
        conv_lhs => rw [← hm2]
        ring
      rw [h4, h5]; ring
    rw [h3]
    exact Int.dvd_sub hd ⟨_, rfl⟩

theorem firstOrdered_some {f1 b1 f2 b2 m : Int} (h1 : 0 < b1) (h2 : 0 < b2)
    (h : firstOrdered f1 b1 f2 b2 = some m) :
    f1 ≤ m ∧ Common f1 b1 f2 b2 m ∧ ∀ x, f1 ≤ x → Common f1 b1 f2 b2 x → m ≤ x := by
  obtain ⟨i, hi, rfl, hd, hmin⟩ := search_some h
  have h0 : (0 : Int) ≤ i * b1 := mul_nonneg (by omega) h1.le
  refine ⟨by omega, ⟨⟨i, by ring⟩, hd⟩, ?_⟩
  intro x hx hc
  obtain ⟨j, hj1, hj2, hj3⟩ := common_reach h1 h2 hx hc
  have : i ≤ j := by
    by_contra h
    exact hmin j (by omega) hj3
  have : (i : Int) * b1 ≤ j * b1 := mul_le_mul_of_nonneg_right (by omega) h1.le
  omega

theorem firstOrdered_none {f1 b1 f2 b2 : Int} (h1 : 0 < b1) (h2 : 0 < b2)
    (h : firstOrdered f1 b1 f2 b2 = none) (x : Int) (hx : f1 ≤ x) : ¬ Common f1 b1 f2 b2 x := by
  intro hc
  obtain ⟨j, hj1, hj2, hj3⟩ := common_reach h1 h2 hx hc
  exact search_none h j (by omega) hj3

theorem firstPositive_some {f1 b1 f2 b2 m : Int} (h1 : 0 < b1) (h2 : 0 < b2)
    (h : firstPositive f1 b1 f2 b2 = some m) :
    f1 ≤ m ∧ f2 ≤ m ∧ Common f1 b1 f2 b2 m ∧ ∀ x, f1 ≤ x → f2 ≤ x → Common f1 b1 f2 b2 x → m ≤ x := by
  unfold firstPositive at h
  split at h
  · obtain ⟨ha, hb, hc⟩ := firstOrdered_some h2 h1 h
    exact ⟨by omega, ha, ⟨hb.2, hb.1⟩, fun x _ hx hx' => hc x hx ⟨hx'.2, hx'.1⟩⟩
  · obtain ⟨ha, hb, hc⟩ := firstOrdered_some h1 h2 h
    exact ⟨ha, by omega, hb, fun x hx _ hx' => hc x hx hx'⟩

theorem firstPositive_none {f1 b1 f2 b2 : Int} (h1 : 0 < b1) (h2 : 0 < b2)
    (h : firstPositive f1 b1 f2 b2 = none) (x : Int) (hx1 : f1 ≤ x) (hx2 : f2 ≤ x) : ¬ Common f1 b1 f2 b2 x := by
  unfold firstPositive at h
  split at h
  · intro hc; exact firstOrdered_none h2 h1 h x hx2 ⟨hc.2, hc.1⟩
  · exact firstOrdered_none h1 h2 h x hx1

theorem common_neg {f1 b1 f2 b2 x : Int} : Common (-f1) (-b1) (-f2) (-b2) (-x) ↔ Common f1 b1 f2 b2 x := by
  unfold Common
  rw [Int.neg_dvd, Int.neg_dvd, show -x - -f1 = -(x - f1) by ring, show -x - -f2 = -(x - f2) by ring,
    Int.dvd_neg, Int.dvd_neg]

theorem firstIntersection_neg_some {f1 b1 f2 b2 m : Int} (h1 : b1 < 0) (h2 : b2 < 0)
    (h : firstIntersection f1 b1 f2 b2 = some m) :
    m ≤ f1 ∧ m ≤ f2 ∧ Common f1 b1 f2 b2 m ∧ ∀ x, x ≤ f1 → x ≤ f2 → Common f1 b1 f2 b2 x → x ≤ m := by
  unfold firstIntersection at h
  rw [if_pos h1] at h
  cases hf : firstPositive (-f1) (-b1) (-f2) (-b2) with
  | none => rw [hf] at h; cases h
  | some k =>
    rw [hf] at h
    simp at h
    obtain ⟨ha, hb, hc, hd⟩ := firstPositive_some (by omega) (by omega) hf
    obtain rfl : k = -m := by omega
    refine ⟨by omega, by omega, common_neg.mp hc, ?_⟩
    intro x hx1 hx2 hx
    have := hd (-x) (by omega) (by omega) (common_neg.mpr hx)
    omega

theorem firstIntersection_neg_none {f1 b1 f2 b2 : Int} (h1 : b1 < 0) (h2 : b2 < 0)
    (h : firstIntersection f1 b1 f2 b2 = none) (x : Int) (hx1 : x ≤ f1) (hx2 : x ≤ f2) :
    ¬ Common f1 b1 f2 b2 x := by
  unfold firstIntersection at h
  rw [if_pos h1] at h
  cases hf : firstPositive (-f1) (-b1) (-f2) (-b2) with
  | some k => rw [hf] at h; cases h
  | none =>
    intro hc
    exact firstPositive_none (by omega) (by omega) hf (-x) (by omega) (by omega) (common_neg.mpr hc)

theorem firstIntersection_pos {f1 b1 f2 b2 : Int} (h1 : 0 < b1) :
    firstIntersection f1 b1 f2 b2 = firstPositive f1 b1 f2 b2 := by
  unfold firstIntersection
  rw [if_neg (by omega)]

/-! ### finite intersections -/

/-- `x` is a term between the bounds. -/
def Between (lo b hi x : Int) : Prop := (lo ≤ x ∧ x ≤ hi) ∧ b ∣ x - lo

/-- A good result: exactly the wanted elements, and not a hollow range. -/
def Good (o : Out Rng) (P : Int → Prop) : Prop :=
  ∃ r, o = .ok r ∧ Proper r ∧ NotHollow r ∧ ∀ x, Contains r x ↔ P x

theorem good_empty {P : Int → Prop} (h : ∀ x, ¬ P x) : Good (.ok .empty) P :=
  ⟨.empty, rfl, trivial, by simp [NotHollow], fun x => ⟨fun hx => absurd hx (not_contains_empty x), fun hx => absurd hx (h x)⟩⟩

theorem ordered_good {lo1 b1 hi1 lo2 b2 hi2 : Int} (h1 : 0 < b1) (h2 : 0 < b2) (hd1 : b1 ∣ hi1 - lo1)
    (hd2 : b2 ∣ hi2 - lo2) (hle : ¬ (hi1 < lo2 ∨ hi2 < lo1) → lo1 ≤ hi1 ∧ lo2 ≤ hi2) :
    Good (orderedIntersection lo1 b1 hi1 lo2 b2 hi2) (fun x => Between lo1 b1 hi1 x ∧ Between lo2 b2 hi2 x) := by
  have shift1 : ∀ x, b1 ∣ x - lo1 ↔ b1 ∣ x - hi1 := by
    intro x
    constructor
    · intro h; have := Int.dvd_sub h hd1; rwa [show x - lo1 - (hi1 - lo1) = x - hi1 by ring] at this
    · intro h; have := Int.dvd_add h hd1; rwa [show x - hi1 + (hi1 - lo1) = x - lo1 by ring] at this
  have shift2 : ∀ x, b2 ∣ x - lo2 ↔ b2 ∣ x - hi2 := by
    intro x
    constructor
    · intro h; have := Int.dvd_sub h hd2; rwa [show x - lo2 - (hi2 - lo2) = x - hi2 by ring] at this
    · intro h; have := Int.dvd_add h hd2; rwa [show x - hi2 + (hi2 - lo2) = x - lo2 by ring] at this
  have common : ∀ x, Common hi1 (-b1) hi2 (-b2) x ↔ Common lo1 b1 lo2 b2 x := by
    intro x; unfold Common; rw [Int.neg_dvd, Int.neg_dvd, ← shift1, ← shift2]
  unfold orderedIntersection
  split
  · rename_i h
    apply good_empty
    rintro x ⟨⟨hx1, -⟩, ⟨hx2, -⟩⟩
    omega
  rename_i hno
  have hle := hle hno
  rw [firstIntersection_pos h1]
  cases hF : firstPositive lo1 b1 lo2 b2 with
  | none =>
    apply good_empty
    rintro x ⟨⟨hx1, hc1⟩, ⟨hx2, hc2⟩⟩
    exact firstPositive_none h1 h2 hF x hx1.1 hx2.1 ⟨hc1, hc2⟩
  | some F =>
    obtain ⟨hF1, hF2, hFc, hFm⟩ := firstPositive_some h1 h2 hF
    simp only
    rw [if_pos ⟨hF1, hF2⟩]
    cases hT : firstIntersection hi1 (-b1) hi2 (-b2) with
    | none =>
      apply good_empty
      rintro x ⟨⟨hx1, hc1⟩, ⟨hx2, hc2⟩⟩
      exact firstIntersection_neg_none (by omega) (by omega) hT x hx1.2 hx2.2 ((common x).mpr ⟨hc1, hc2⟩)
    | some T =>
      obtain ⟨hT1, hT2, hTc, hTm⟩ := firstIntersection_neg_some (by omega) (by omega) hT
      rw [common] at hTc
      simp only
      rw [if_pos ⟨hT1, hT2⟩]
      have hl := lcmI_gt h1 h2
      have hdv : ∀ x, lcmI b1 b2 ∣ x - F ↔ Common lo1 b1 lo2 b2 x := by
        intro x
        rw [lcmI_dvd h1 h2]
        constructor
        · rintro ⟨ha, hb⟩
          have ha := Int.dvd_add ha hFc.1
          have hb := Int.dvd_add hb hFc.2
          rw [show x - F + (F - lo1) = x - lo1 by ring] at ha
          rw [show x - F + (F - lo2) = x - lo2 by ring] at hb
          exact ⟨ha, hb⟩
        · rintro ⟨ha, hb⟩
          have ha := Int.dvd_sub ha hFc.1
          have hb := Int.dvd_sub hb hFc.2
          rw [show x - lo1 - (F - lo1) = x - F by ring] at ha
          rw [show x - lo2 - (F - lo2) = x - F by ring] at hb
          exact ⟨ha, hb⟩
      generalize lcmI b1 b2 = l at *
      obtain ⟨q, hq⟩ := (hdv T).mpr hTc
      -- the last common term is not more than one step before the first
      have hFT : F - l ≤ T := by
        have hc : Common lo1 b1 lo2 b2 (F - l) := (hdv _).mp ⟨-1, by ring⟩
        by_cases hb : F - l ≤ hi1 ∧ F - l ≤ hi2
        · exact hTm _ hb.1 hb.2 ((common _).mpr hc)
        · exfalso
          have := hFm (F - l) (by omega) (by omega) hc
          omega
      have hq1 : -1 ≤ q := by
        by_contra h
        have : l * q ≤ l * (-2) := mul_le_mul_of_nonneg_left (by omega) hl.le
        omega
      have hmake : make { start := F, upTo := some T, step := l } = .ok (finish F l (q + 1)) := by
        have : floorDiv (T + l - F) l = q + 1 := by
          rw [show T + l - F = (q + 1) * l by rw [add_mul, one_mul, mul_comm, ← hq]; ring, floorDiv_mul hl.ne']
        simp [make, bound, hl.ne', hl, this]
      rw [hmake]
      refine ⟨_, rfl, ?_, ?_, ?_⟩
      · unfold finish; split
        · trivial
        · exact ⟨hl.ne', by omega⟩
      · unfold finish; split <;> simp [NotHollow]
      · intro x
        have hT' : F + l * (q + 1 - 1) = T := by rw [show q + 1 - 1 = q by ring]; omega
        have : Contains (finish F l (q + 1)) x ↔ (F ≤ x ∧ x ≤ T) ∧ l ∣ x - F := by
          unfold finish
          split
          · rename_i h0
            obtain rfl : q = -1 := by omega
            constructor
            · intro h; exact absurd h (not_contains_empty x)
            · rintro ⟨⟨ha, hb⟩, -⟩; omega
          · rw [contains_finite_pos hl, hT']
        rw [this, hdv]
        constructor
        · rintro ⟨⟨ha, hb⟩, hc⟩
          exact ⟨⟨⟨by omega, by omega⟩, hc.1⟩, ⟨⟨by omega, by omega⟩, hc.2⟩⟩
        · rintro ⟨⟨ha, hc1⟩, ⟨hb, hc2⟩⟩
          exact ⟨⟨hFm x ha.1 hb.1 ⟨hc1, hc2⟩, hTm x ha.2 hb.2 ((common x).mpr ⟨hc1, hc2⟩)⟩, hc1, hc2⟩

/-- The lower end, step size and upper end of a progression given by start, step and last term. -/
def lowEnd (f b t : Int) : Int := if b < 0 then t else f
def highEnd (f b t : Int) : Int := if b < 0 then f else t

theorem finite_good {f1 b1 t1 f2 b2 t2 : Int} (h1 : b1 ≠ 0) (h2 : b2 ≠ 0) (hd1 : b1 ∣ t1 - f1)
    (hd2 : b2 ∣ t2 - f2)
    (hle : ¬ (highEnd f1 b1 t1 < lowEnd f2 b2 t2 ∨ highEnd f2 b2 t2 < lowEnd f1 b1 t1) →
      lowEnd f1 b1 t1 ≤ highEnd f1 b1 t1 ∧ lowEnd f2 b2 t2 ≤ highEnd f2 b2 t2) :
    Good (finiteIntersection f1 b1 t1 f2 b2 t2) (fun x =>
      Between (lowEnd f1 b1 t1) |b1| (highEnd f1 b1 t1) x ∧ Between (lowEnd f2 b2 t2) |b2| (highEnd f2 b2 t2) x) := by
  have flip : ∀ b t f : Int, b ∣ t - f → -b ∣ f - t := by
    intro b t f h
    rw [Int.neg_dvd, show f - t = -(t - f) by ring, Int.dvd_neg]; exact h
  unfold finiteIntersection
  unfold lowEnd highEnd at *
  by_cases hb1 : b1 < 0 <;> by_cases hb2 : b2 < 0 <;>
    simp only [hb1, hb2, if_true, if_false] at hle ⊢
  · rw [abs_of_neg hb1, abs_of_neg hb2]
    exact ordered_good (by omega) (by omega) (flip _ _ _ hd1) (flip _ _ _ hd2) hle
  · rw [abs_of_neg hb1, abs_of_pos (by omega)]
    exact ordered_good (by omega) (by omega) (flip _ _ _ hd1) hd2 hle
  · rw [abs_of_pos (a := b1) (by omega), abs_of_neg hb2]
    exact ordered_good (by omega) (by omega) hd1 (flip _ _ _ hd2) hle
  · rw [abs_of_pos (a := b1) (by omega), abs_of_pos (a := b2) (by omega)]
    exact ordered_good (by omega) (by omega) hd1 hd2 hle

theorem contains_finite_between {f b n : Int} (hb : b ≠ 0) (x : Int) :
    Contains (.finite f b n) x ↔ Between (lowEnd f b (f + b * (n - 1))) |b| (highEnd f b (f + b * (n - 1))) x := by
  unfold Between lowEnd highEnd
  by_cases h : b < 0
  · simp only [h, if_true]; rw [abs_of_neg h, contains_finite_neg h]
  · simp only [h, if_false]; rw [abs_of_pos (by omega), contains_finite_pos (by omega)]

theorem finite_ends {f b n : Int} (hn : 1 ≤ n) :
    lowEnd f b (f + b * (n - 1)) ≤ highEnd f b (f + b * (n - 1)) ∧ b ∣ f + b * (n - 1) - f := by
  refine ⟨?_, ⟨n - 1, by ring⟩⟩
  unfold lowEnd highEnd
  by_cases h : b < 0
  · simp only [h, if_true]
    have := mul_nonpos_of_nonpos_of_nonneg h.le (show 0 ≤ n - 1 by omega)
    omega
  · simp only [h, if_false]
    have := mul_nonneg (show 0 ≤ b by omega) (show 0 ≤ n - 1 by omega)
    omega

/-- The last term of an infinite range towards `bound`. -/
theorem last_term (f b bound : Int) :
    let t := (truncDiv (bound - f) b).1 * b + f
    b ∣ t - f ∧
    (0 < b → f ≤ bound → f ≤ t ∧ ∀ x, x ≤ bound → f ≤ x → b ∣ x - f → x ≤ t) ∧
    (0 < b → t ≤ bound ∨ bound < f) ∧
    (b < 0 → bound ≤ f → t ≤ f ∧ ∀ x, bound ≤ x → x ≤ f → b ∣ x - f → t ≤ x) ∧
    (b < 0 → bound ≤ t ∨ f < bound) := by
  intro t
  have ht : t = (bound - f).tdiv b * b + f := rfl
  have hdecomp := Int.tmod_add_mul_tdiv (bound - f) b
  set q := (bound - f).tdiv b with hqd
  have hcomm : b * q = q * b := mul_comm _ _
  have hpos : 0 < b → f ≤ bound → 0 ≤ q ∧ 0 ≤ (bound - f).tmod b ∧ (bound - f).tmod b < b := by
    intro h hf
    refine ⟨?_, Int.tmod_nonneg _ (by omega), Int.tmod_lt_of_pos _ h⟩
    rw [hqd]; exact Int.tdiv_nonneg (by omega) h.le
  have hneg : b < 0 → bound ≤ f → 0 ≤ q ∧ (bound - f).tmod b ≤ 0 ∧ b < (bound - f).tmod b := by
    intro h hf
    have e : (bound - f).tmod b = -((f - bound).tmod (-b)) := by
      rw [Int.tmod_neg, ← Int.neg_tmod]; congr 1; ring
    have e2 : q = (f - bound).tdiv (-b) := by
      rw [hqd, Int.tdiv_neg, ← Int.neg_tdiv]; congr 1; ring
    have h1 := Int.tmod_nonneg (-b) (show 0 ≤ f - bound by omega)
    have h2 := Int.tmod_lt_of_pos (f - bound) (show 0 < -b by omega)
    refine ⟨?_, by omega, by omega⟩
    rw [e2]; exact Int.tdiv_nonneg (by omega) (by omega)
  refine ⟨⟨q, by rw [ht]; ring⟩, ?_, ?_, ?_, ?_⟩
  · intro h hf
    obtain ⟨h1, h2, h3⟩ := hpos h hf
    have h4 := mul_nonneg h1 h.le
    refine ⟨by omega, ?_⟩
    rintro x hx1 hx2 ⟨k, hk⟩
    have : k ≤ q := by
      by_contra hc
      have : b * (q + 1) ≤ b * k := mul_le_mul_of_nonneg_left (by omega) h.le
      have : b * (q + 1) = b * q + b := by ring
      omega
    have := mul_le_mul_of_nonneg_left this h.le
    omega
  · intro h
    by_cases hf : f ≤ bound
    · obtain ⟨h1, h2, h3⟩ := hpos h hf
      left; omega
    · right; omega
  · intro h hf
    obtain ⟨h1, h2, h3⟩ := hneg h hf
    have h4 := mul_nonpos_of_nonneg_of_nonpos h1 h.le
    refine ⟨by omega, ?_⟩
    rintro x hx1 hx2 ⟨k, hk⟩
    have : k ≤ q := by
      by_contra hc
      have : b * k ≤ b * (q + 1) := mul_le_mul_of_nonpos_left (by omega) h.le
      have : b * (q + 1) = b * q + b := by ring
      omega
    have := mul_le_mul_of_nonpos_left this h.le
    omega
  · intro h
    by_cases hf : bound ≤ f
    · obtain ⟨h1, h2, h3⟩ := hneg h hf
      left; omega
    · right; omega

end Verif.Range
