import Verif.Range.Lemmas
/-
C10, C12, C40: what ranges contain, and the operations on them.
-/
namespace Verif.Range

/-! ## C10: make, element, size, member? -/

/-- Without bounds and size the range is the infinite progression. -/
theorem make_infinite (s b : Int) (hb : b ≠ 0) : MakeRight { start := s, step := b } := by
  refine ⟨.infinite s b, none, ?_, ?_, behaves_infinite s b⟩
  · by_cases h : b > 0 <;> simp [make, bound, hb, h]
  · intro k; simp [Allowed]

/-- With a size only, the range has that many terms. -/
theorem make_size (s b n : Int) (hb : b ≠ 0) (hn : 0 ≤ n) :
    MakeRight { start := s, step := b, size := some n } := by
  refine ⟨finish s b n, some n.toNat, ?_, ?_, behaves_finish s b n hn⟩
  · by_cases h : b > 0 <;> simp [make, bound, hb, h]
  · intro k; simp [Allowed]

private theorem within_iff {s b t : Int} (hb : b ≠ 0) (k : Nat) :
    (if 0 < b then s + k * b ≤ t else t ≤ s + k * b) ↔ (k : Int) < floorDiv (t + b - s) b := by
  have e : t + b - s = (t - s) + b := by ring
  rw [e, floorDiv_add_self hb, Int.lt_add_one_iff]
  split
  · rename_i h
    rw [le_floorDiv_pos h]; omega
  · rw [le_floorDiv_neg (by omega)]; omega

private theorem within_mono {s b t : Int} (hb : b ≠ 0) {j k : Nat} (hjk : j ≤ k)
    (h : if 0 < b then s + k * b ≤ t else t ≤ s + k * b) : if 0 < b then s + j * b ≤ t else t ≤ s + j * b := by
  rw [within_iff hb] at h ⊢
  omega

private theorem make_to_eq (s b t : Int) (hb : b ≠ 0) :
    make { start := s, step := b, upTo := some t } = .ok (finish s b (floorDiv (t + b - s) b)) := by
  by_cases h : b > 0 <;> simp [make, bound, hb, h]

/-- C10, `to:` (with no other bound): the range has exactly the terms up to the bound, provided the bound
is not more than one step before the start; otherwise the result is wrong (a range of negative size). -/
theorem make_to_iff (s b t : Int) (hb : b ≠ 0) :
    MakeRight { start := s, step := b, upTo := some t } ↔ -1 ≤ floorDiv (t - s) b := by
  have e : floorDiv (t + b - s) b = floorDiv (t - s) b + 1 := by
    rw [show t + b - s = (t - s) + b by ring, floorDiv_add_self hb]
  constructor
  · rintro ⟨r, n, hr, -, hB⟩
    rw [make_to_eq s b t hb] at hr
    injection hr with hr
    subst hr
    have := hB.1
    rw [size_finish, e] at this
    cases n with
    | none => simp at this
    | some m => simp at this; omega
  · intro h
    refine ⟨_, some (floorDiv (t + b - s) b).toNat, make_to_eq s b t hb, ?_, behaves_finish s b _ (by omega)⟩
    intro k
    have h1 : (∀ m, some (floorDiv (t + b - s) b).toNat = some m → k < m) ↔ (k : Int) < floorDiv (t + b - s) b := by
      constructor
      · intro h; have := h _ rfl; omega
      · intro h m hm; injection hm; omega
    rw [h1, ← within_iff hb]
    simp only [Allowed, Option.some.injEq, forall_eq']
    constructor
    · intro h
      refine ⟨fun j hj => ⟨within_mono hb hj h, ?_, ?_⟩, ?_⟩ <;> simp
    · intro h
      exact (h.1 k le_rfl).1

/-- Ten terms up to and including 9, and none when the bound is just before the start. -/
example : MakeRight { start := 0, step := 1, upTo := some 9 } ∧ MakeRight { start := 5, step := 1, upTo := some 4 } :=
  ⟨(make_to_iff 0 1 9 (by omega)).mpr (by decide), (make_to_iff 5 1 4 (by omega)).mpr (by decide)⟩

private theorem make_below_eq (s b v : Int) (hb : 0 < b) :
    make { start := s, step := b, below := some v } = .ok (finish s b (floorDiv (v - s) b)) := by
  simp [make, bound, hb, hb.ne']

private theorem make_above_eq (s b v : Int) (hb : b < 0) :
    make { start := s, step := b, above := some v } = .ok (finish s b (floorDiv (v - s) b)) := by
  simp [make, bound, show ¬ b > 0 by omega, hb.ne]

private theorem exclusive_iff {s b v : Int} (hb : b ≠ 0) (P : Int → Prop)
    (hP : ∀ k : Int, P (s + k * b) ↔ k * |b| < (v - s) * b.sign)
    {r : Rng} (hr : r = finish s b (floorDiv (v - s) b)) :
    (∃ n, (∀ k : Nat, (∀ m, n = some m → k < m) ↔ ∀ j : Nat, j ≤ k → P (s + j * b)) ∧
      Behaves r (fun k => s + k * b) n) ↔ 0 ≤ (v - s) * b.sign ∧ b ∣ v - s := by
  subst hr
  have habs : 0 < |b| := abs_pos.mpr hb
  have hq : floorDiv (v - s) b = floorDiv ((v - s) * b.sign) |b| := by
    rcases lt_or_gt_of_ne hb with h | h
    · rw [Int.sign_eq_neg_one_of_neg h, abs_of_neg h, ← floorDiv_neg]; congr 1; ring
    · rw [Int.sign_eq_one_of_pos h, abs_of_pos h]; congr 1; ring
  have hdvd : b ∣ v - s ↔ |b| ∣ (v - s) * b.sign := by
    rcases lt_or_gt_of_ne hb with h | h
    · rw [Int.sign_eq_neg_one_of_neg h, abs_of_neg h, mul_neg_one, Int.dvd_neg, Int.neg_dvd]
    · rw [Int.sign_eq_one_of_pos h, abs_of_pos h, mul_one]
  rw [hq, hdvd]
  generalize (v - s) * b.sign = y at *
  generalize |b| = c at *
  set q := floorDiv y c with hqd
  have hle : ∀ x, x ≤ q ↔ x * c ≤ y := fun x => le_floorDiv_pos habs
  constructor
  · rintro ⟨n, hW, hB⟩
    have hs := hB.1
    rw [size_finish] at hs
    cases n with
    | none => simp at hs
    | some m =>
      have hm : q = (m : Int) := by simpa using hs
      have h0 : 0 ≤ y := by have := (hle 0).mp (by omega); omega
      refine ⟨h0, ?_⟩
      have h1 : ¬ ∀ j : Nat, j ≤ m → P (s + j * b) := by
        intro h
        have := (hW m).mpr h m rfl
        omega
      push Not at h1
      obtain ⟨j, hj, hjP⟩ := h1
      rw [hP] at hjP
      have h2 : (j : Int) * c ≤ m * c := mul_le_mul_of_nonneg_right (by omega) habs.le
      have h3 := (hle m).mp (by omega)
      exact ⟨m, by have : (m : Int) * c = c * m := mul_comm _ _; omega⟩
  · rintro ⟨h0, k0, hk0⟩
    have hqk : q = k0 := by
      rw [hqd, hk0, mul_comm]; exact floorDiv_mul (by omega)
    have hq0 : 0 ≤ q := (hle 0).mpr (by omega)
    refine ⟨some q.toNat, ?_, behaves_finish s b q hq0⟩
    intro k
    have hmul : c * k0 = k0 * c := mul_comm _ _
    have key : ∀ j : Nat, P (s + j * b) ↔ (j : Int) < q := by
      intro j
      rw [hP, hk0, hmul, hqk]
      exact mul_lt_mul_iff_of_pos_right habs
    constructor
    · intro h j hj
      have := h _ rfl
      rw [key]; omega
    · intro h m hm
      injection hm with hm
      have := (key k).mp (h k le_rfl)
      omega

/-- C10, `below:` with a positive step: right exactly when the start is not beyond the bound and the step
divides the distance; otherwise the last term below the bound is missing, or the size is negative. -/
theorem make_below_iff (s b v : Int) (hb : 0 < b) :
    MakeRight { start := s, step := b, below := some v } ↔ s ≤ v ∧ b ∣ v - s := by
  have h := exclusive_iff (s := s) (b := b) (v := v) hb.ne' (fun x => x < v) (by
    intro k; rw [Int.sign_eq_one_of_pos hb, abs_of_pos hb]; constructor <;> intro h <;> linarith) rfl
  rw [Int.sign_eq_one_of_pos hb, mul_one] at h
  rw [show s ≤ v ↔ 0 ≤ v - s by omega, ← h]
  unfold MakeRight
  rw [make_below_eq s b v hb]
  constructor
  · rintro ⟨r, n, hr, hW, hB⟩
    injection hr with hr; subst hr
    exact ⟨n, fun k => by simpa [Allowed] using hW k, hB⟩
  · rintro ⟨n, hW, hB⟩
    exact ⟨_, n, rfl, fun k => by simpa [Allowed] using hW k, hB⟩

example : MakeRight { start := 0, step := 3, below := some 9 } :=
  (make_below_iff 0 3 9 (by omega)).mpr ⟨by omega, by decide⟩

/-- C10, `above:` with a negative step. -/
theorem make_above_iff (s b v : Int) (hb : b < 0) :
    MakeRight { start := s, step := b, above := some v } ↔ v ≤ s ∧ b ∣ v - s := by
  have h := exclusive_iff (s := s) (b := b) (v := v) hb.ne (fun x => v < x) (by
    intro k; rw [Int.sign_eq_neg_one_of_neg hb, abs_of_neg hb]; constructor <;> intro h <;> linarith) rfl
  rw [Int.sign_eq_neg_one_of_neg hb] at h
  rw [show v ≤ s ↔ 0 ≤ (v - s) * -1 by omega, ← h]
  unfold MakeRight
  rw [make_above_eq s b v hb]
  constructor
  · rintro ⟨r, n, hr, hW, hB⟩
    injection hr with hr; subst hr
    exact ⟨n, fun k => by simpa [Allowed] using hW k, hB⟩
  · rintro ⟨n, hW, hB⟩
    exact ⟨_, n, rfl, fun k => by simpa [Allowed] using hW k, hB⟩

example : MakeRight { start := 10, step := -5, above := some 0 } :=
  (make_above_iff 10 (-5) 0 (by omega)).mpr ⟨by omega, by decide⟩

/-- C10, `size:` together with `to:`: an error, or the right range; no error if the size is the number of
terms up to the bound (and the bound is not more than one step before the start). -/
theorem make_to_size (s b t n : Int) (hb : b ≠ 0) (hn : 0 ≤ n) :
    (make { start := s, step := b, upTo := some t, size := some n } = .err .mismatch ∨
      MakeRight { start := s, step := b, upTo := some t, size := some n }) ∧
    (-1 ≤ floorDiv (t - s) b → Wanted { start := s, step := b, upTo := some t } (some n.toNat) →
      MakeRight { start := s, step := b, upTo := some t, size := some n }) := by
  have e : floorDiv (t + b - s) b = floorDiv (t - s) b + 1 := by
    rw [show t + b - s = (t - s) + b by ring, floorDiv_add_self hb]
  have hm : make { start := s, step := b, upTo := some t, size := some n } =
      if n ≠ floorDiv (t + b - s) b then .err .mismatch else .ok (finish s b n) := by
    by_cases h : b > 0 <;> simp [make, bound, hb, h]
  have hA : ∀ k : Nat, Allowed { start := s, step := b, upTo := some t } (s + k * b) ↔
      (k : Int) < floorDiv (t + b - s) b := by
    intro k
    rw [← within_iff hb]
    simp [Allowed]
  have h1 : ∀ k : Nat, (∀ m, some n.toNat = some m → k < m) ↔ (k : Int) < n := by
    intro k
    constructor
    · intro h; have := h _ rfl; omega
    · intro h m hm; injection hm; omega
  have good : n = floorDiv (t + b - s) b →
      MakeRight { start := s, step := b, upTo := some t, size := some n } := by
    intro h
    refine ⟨finish s b n, some n.toNat, by rw [hm, if_neg (by simpa using h)], ?_, behaves_finish s b n hn⟩
    intro k
    rw [h1]
    constructor
    · intro hk
      refine ⟨fun j hj => ?_, by rintro s' hs; cases hs; exact hk⟩
      have := (hA j).mpr (by omega)
      simpa [Allowed] using this
    · intro hk
      exact hk.2 n rfl
  constructor
  · by_cases h : n = floorDiv (t + b - s) b
    · exact .inr (good h)
    · left; rw [hm, if_pos (by simpa using h)]
  · intro hq hW
    apply good
    have key : ∀ k : Nat, (k : Int) < n ↔ (k : Int) < floorDiv (t + b - s) b := by
      intro k
      have := hW k
      rw [h1] at this
      rw [this]
      constructor
      · intro h; exact (hA k).mp (h.1 k le_rfl)
      · intro h; exact ⟨fun j hj => (hA j).mpr (by omega), by simp⟩
    have h2 := key n.toNat
    have h3 := key (floorDiv (t + b - s) b).toNat
    omega

example : MakeRight { start := 0, step := 2, upTo := some 7, size := some 4 } := by
  rcases (make_to_size 0 2 7 4 (by omega) (by omega)).1 with h | h
  · exact absurd h (by decide)
  · exact h

/-- C10, a step of 0: the range repeats its start, or is empty when the start is out of the bounds.
(`to:` is ignored.) -/
theorem make_constant (s : Int) (below above : Option Int) (n : Option Int) (hn : ∀ m, n = some m → 0 ≤ m) :
    MakeRight { start := s, step := 0, below := below, above := above, size := n } := by
  by_cases h : (∀ b, below = some b → s < b) ∧ (∀ b, above = some b → b < s)
  · refine ⟨.constant s n, n.map Int.toNat, ?_, ?_, (behaves_constant s n hn).congr (by simp)⟩
    · obtain ⟨h1, h2⟩ := h
      cases below <;> cases above <;> simp_all [make]
    · intro k
      simp only [Allowed, mul_zero, add_zero]
      constructor
      · intro hk
        refine ⟨fun j _ => ⟨by simp, h.1, h.2⟩, ?_⟩
        rintro s' rfl
        have := hk s'.toNat (by simp)
        have := hn s' rfl
        omega
      · rintro ⟨-, hk⟩ m hm
        cases n with
        | none => simp at hm
        | some v =>
          have := hk v rfl
          simp at hm; omega
  · refine ⟨.empty, some 0, ?_, ?_, behaves_empty _⟩
    · cases below <;> cases above <;> (simp_all [make]; try omega)
    · intro k
      constructor
      · intro hk; exact absurd (hk 0 rfl) (by omega)
      · rintro ⟨h1, -⟩
        have := h1 0 (by omega)
        simp only [Allowed, mul_zero, add_zero] at this
        exact absurd this.2 h

/-- C10 fails: terms missing below a bound that the steps jump over; a range of negative size when the
bound is before the start; and with both `to:` and `below:` the larger bound is used. -/
theorem make_violated :
    ¬ MakeRight { start := 0, step := 3, below := some 10 } ∧
    ¬ MakeRight { start := 5, step := 1, upTo := some 0 } ∧
    make { start := 5, step := 1, upTo := some 0 } = .ok (.finite 5 1 (-4)) ∧
    ¬ MakeRight { start := 5, step := 1, below := some 0 } ∧
    ¬ MakeRight { start := 0, step := 1, upTo := some 3, below := some 10 } ∧
    make { start := 0, step := 1, upTo := some 3, below := some 10 } = .ok (.finite 0 1 10) := by
  refine ⟨?_, ?_, by decide, ?_, ?_, by decide⟩
  · rw [make_below_iff _ _ _ (by omega)]; decide
  · rw [make_to_iff _ _ _ (by omega)]; decide
  · rw [make_below_iff _ _ _ (by omega)]; decide
  · rintro ⟨r, n, hr, hW, hB⟩
    have hr' : r = .finite 0 1 10 := by
      have : make { start := 0, step := 1, upTo := some 3, below := some 10 } = .ok (.finite 0 1 10) := by decide
      rw [this] at hr; injection hr with hr; exact hr.symm
    subst hr'
    have := hB.1
    cases n with
    | none => simp [size] at this
    | some m =>
      have hm : m = 10 := by simp [size] at this; omega
      have := ((hW 5).mp (by intro m' h; injection h; omega)).1 5 le_rfl
      have := this.1 3 rfl
      simp at this

/-- C10: an empty or finite range rejects negative keys (and, by `Behaves`, keys from its size on). -/
theorem rejects_negative_partial (r : Rng) (h : (∀ f s, r ≠ .constant f s) ∧ ∀ f b, r ≠ .infinite f b) :
    RejectsNegative r := by
  intro key hk
  cases r with
  | empty => rfl
  | constant f s => exact absurd rfl (h.1 f s)
  | infinite f b => exact absurd rfl (h.2 f b)
  | finite f b n => simp [element, missing, show ¬ (0 ≤ key) by omega]

/-- C10 fails: constant and infinite ranges answer negative keys. -/
theorem rejects_negative_violated :
    element (.infinite 0 2) (-3) = .ok (-6) ∧ element (.constant 7 (some 2)) (-1) = .ok 7 := by decide

/-- C10: with a `default:`, the key of a missing element of a finite range gives the default. -/
theorem element_default {r : Rng} {l : List Int} (h : Is r l) (hp : Proper r) (k : Nat) (d : Int) :
    element r k (some d) = .ok (l.getD k d) := by
  have h1 := h.2 k
  cases r with
  | empty =>
    have := h.unique (behaves_empty (fun _ => 0)).is
    subst this; simp [element, missing]
  | infinite f b => have := h.1; simp [size] at this
  | finite f b n =>
    have := h.unique (behaves_finite f b n (by have := hp.2; omega)).is
    subst this
    by_cases hk : (k : Int) < n
    · have : k < n.toNat := by omega
      simp [element, hk, this]
    · have : ¬ k < n.toNat := by omega
      simp [element, hk, missing, this]
  | constant f s =>
    cases s with
    | none => have := h.1; simp [size] at this
    | some n =>
      have hn := hp n rfl
      have := h.unique (behaves_constant f (some n) hp).is
      subst this
      by_cases hk : (k : Int) < n
      · have : k < n.toNat := by omega
        simp [element, hk, this]
      · have : ¬ k < n.toNat := by omega
        simp [element, hk, missing, this]

private theorem trunc_key {v f b : Int} (hb : b ≠ 0) (k : Nat) :
    ((v - f).tmod b = 0 ∧ (v - f).tdiv b = k) ↔ f + k * b = v := by
  constructor
  · rintro ⟨h1, h2⟩
    have := Int.tmod_add_mul_tdiv (v - f) b
    rw [h1, h2] at this
    have : b * (k : Int) = k * b := mul_comm _ _
    omega
  · intro h
    have : v - f = b * k := by rw [mul_comm]; omega
    rw [this]
    exact ⟨Int.mul_tmod_right .., Int.mul_tdiv_cancel_left _ hb⟩

private theorem findKey_infinite (v f b : Int) : findKey v (.infinite f b) =
    if (v - f).tmod b = 0 ∧ 0 ≤ (v - f).tdiv b then some ((v - f).tdiv b) else none := rfl

private theorem findKey_finite (v f b n : Int) : findKey v (.finite f b n) =
    if (v - f).tmod b = 0 ∧ 0 ≤ (v - f).tdiv b ∧ (v - f).tdiv b < n then some ((v - f).tdiv b) else none := rfl

/-- C10: `find-key-for-element` gives the first key with that value, if there is one. -/
theorem findKey_partial {r : Rng} (hp : Proper r) (hh : NotHollow r) (v : Int) :
    (∀ key, findKey v r = some key → ∃ k : Nat, key = k ∧ element r k = .ok v ∧
      ∀ j : Nat, j < k → element r j ≠ .ok v) ∧
    (findKey v r = none → ¬ Contains r v) := by
  cases r with
  | empty => exact ⟨by simp [findKey], by simp [Contains, element, missing]⟩
  | constant f s =>
    constructor
    · intro key hk
      simp only [findKey] at hk
      split at hk
      · rename_i hv
        injection hk with hk
        refine ⟨0, hk.symm, ?_, by omega⟩
        cases s with
        | none => simp [element, hv]
        | some n =>
          have := hp n rfl
          have h0 : n ≠ 0 := by rintro rfl; exact hh f rfl
          simp [element, hv, show 0 < n by omega]
      · cases hk
    · intro hk
      simp only [findKey] at hk
      split at hk
      · cases hk
      · rename_i hv
        rintro ⟨k, h⟩
        cases s with
        | none => simp [element] at h; exact hv h.symm
        | some n =>
          simp only [element, missing] at h
          split at h
          · injection h with h; exact hv h.symm
          · cases h
  | infinite f b =>
    have hb : b ≠ 0 := hp
    rw [findKey_infinite]
    constructor
    · intro key hk
      split at hk
      · rename_i h
        injection hk with hk
        obtain ⟨k, hk'⟩ := Int.eq_ofNat_of_zero_le h.2
        have hv := (trunc_key hb k).mp ⟨h.1, hk'⟩
        refine ⟨k, by omega, by simp [element, hv], ?_⟩
        intro j hj he
        simp only [element, Out.ok.injEq] at he
        have : (j : Int) * b = k * b := by omega
        have := mul_right_cancel₀ hb this
        omega
      · cases hk
    · intro hk
      rintro ⟨k, he⟩
      simp only [element, Out.ok.injEq] at he
      have := (trunc_key hb k).mpr he
      rw [if_pos ⟨this.1, by omega⟩] at hk
      cases hk
  | finite f b n =>
    have hb : b ≠ 0 := hp.1
    rw [findKey_finite]
    constructor
    · intro key hk
      split at hk
      · rename_i h
        injection hk with hk
        obtain ⟨k, hk'⟩ := Int.eq_ofNat_of_zero_le h.2.1
        have hv := (trunc_key hb k).mp ⟨h.1, hk'⟩
        refine ⟨k, by omega, by simp [element, hv, show (k : Int) < n by omega], ?_⟩
        intro j hj he
        simp only [element] at he
        rw [if_pos (by omega)] at he
        injection he with he
        have : (j : Int) * b = k * b := by omega
        have := mul_right_cancel₀ hb this
        omega
      · cases hk
    · intro hk
      rintro ⟨k, he⟩
      simp only [element, missing] at he
      split at he
      · rename_i hkn
        injection he with he
        have := (trunc_key hb k).mpr he
        rw [if_pos ⟨this.1, by omega⟩] at hk
        cases hk
      · cases he

/-- C10: `member?` answers whether some element equals the value.  Missing: constant ranges of size 0
(`member_violated`). -/
theorem member_partial {r : Rng} (hp : Proper r) (hh : NotHollow r) (v : Int) :
    member v r = true ↔ Contains r v := by
  have h := findKey_partial hp hh v
  unfold member
  cases hk : findKey v r with
  | none => simpa using h.2 hk
  | some key =>
    obtain ⟨k, -, he, -⟩ := h.1 key hk
    simpa using ⟨k, he⟩

example : member 9 (.finite 0 3 4) = true ∧ member 10 (.finite 0 3 4) = false ∧ Contains (.finite 0 3 4) 9 :=
  ⟨by decide, by decide, (member_partial (by simp [Proper]) (by simp [NotHollow]) 9).mp (by decide)⟩

/-- C10 fails: a range made with step 0 and size 0 has no elements, but `member?` says it has one and
`empty?` says it is not empty. -/
theorem member_violated : make { start := 5, step := 0, size := some 0 } = .ok (.constant 5 (some 0)) ∧
    Is (.constant 5 (some 0)) [] ∧ member 5 (.constant 5 (some 0)) = true ∧
    isEmpty (.constant 5 (some 0)) = false := by
  refine ⟨by decide, ?_, by decide, by decide⟩
  exact (behaves_constant 5 (some 0) (by simp)).is

/-- C10: `empty?` answers whether there are no elements. -/
theorem isEmpty_partial {r : Rng} (hp : Proper r) (hh : NotHollow r) :
    isEmpty r = true ↔ ¬ ∃ x, Contains r x := by
  cases r with
  | empty => simp [isEmpty, Contains, element, missing]
  | infinite f b => simp [isEmpty, Contains, element]
  | constant f s =>
    cases s with
    | none => simp [isEmpty, Contains, element]
    | some n =>
      have := hp n rfl
      have h0 : n ≠ 0 := by rintro rfl; exact hh f rfl
      simp only [isEmpty, Bool.false_eq_true, false_iff, not_not]
      exact ⟨f, 0, by simp [element, show 0 < n by omega]⟩
  | finite f b n =>
    simp only [isEmpty, Bool.false_eq_true, false_iff, not_not]
    have := hp.2
    exact ⟨f, 0, by simp [element, show 0 < n by omega]⟩

/-- C10: `last` is the last element. -/
theorem last_exact {r : Rng} {l : List Int} (hp : Proper r) (h : Is r l) (hl : l ≠ []) :
    last r = .ok (l.getLast hl) := by
  cases r with
  | empty =>
    have := h.unique (behaves_empty (fun _ => 0)).is
    subst this; simp at hl
  | infinite f b => have := h.1; simp [size] at this
  | finite f b n =>
    have := h.unique (behaves_finite f b n (by have := hp.2; omega)).is
    subst this
    have hn := hp.2
    simp only [last, List.getLast_eq_getElem, List.length_map, List.length_range, List.getElem_map,
      List.getElem_range]
    have : ((n.toNat - 1 : Nat) : Int) = n - 1 := by omega
    rw [this, mul_comm]
  | constant f s =>
    cases s with
    | none => have := h.1; simp [size] at this
    | some n =>
      have := h.unique (behaves_constant f (some n) hp).is
      subst this
      simp [last, List.getLast_eq_getElem]

/-! ## C12: operations -/

/-- C12: `reverse!` gives the elements in reverse order. -/
theorem reverse!_exact {r : Rng} {l : List Int} (hp : Proper r) (h : Is r l) :
    ∃ r', reverse! r = .ok r' ∧ Proper r' ∧ Is r' l.reverse := by
  cases r with
  | empty =>
    have := h.unique (behaves_empty (fun _ => 0)).is
    subst this
    exact ⟨.empty, rfl, trivial, h⟩
  | infinite f b => have := h.1; simp [size] at this
  | finite f b n =>
    have := h.unique (behaves_finite f b n (by have := hp.2; omega)).is
    subst this
    have hn := hp.2
    have hb := hp.1
    refine ⟨_, rfl, ⟨by omega, hn⟩, ?_⟩
    rw [terms_reverse]
    have := (behaves_finite (f + b * (n - 1)) (-b) n (by omega)).is
    convert this using 1
    apply List.map_congr_left
    intro k hk
    have hk := List.mem_range.mp hk
    have : ((n.toNat - 1 - k : Nat) : Int) = n - 1 - k := by omega
    rw [this]; ring
  | constant f s =>
    cases s with
    | none => have := h.1; simp [size] at this
    | some n =>
      have := h.unique (behaves_constant f (some n) hp).is
      subst this
      refine ⟨_, rfl, hp, ?_⟩
      rw [terms_reverse]
      exact h

/-- C12: `reverse!` of a range without end is an error. -/
theorem reverse!_infinite {r : Rng} (h : size r = none) : reverse! r = .err .infinite := by
  cases r with
  | empty => simp [size] at h
  | finite f b n => simp [size] at h
  | infinite f b => rfl
  | constant f s => cases s with | none => rfl | some n => simp [size] at h

private theorem drop_take_terms (f : Nat → Int) (n s m : Nat) (h : s + m ≤ n) :
    (((List.range n).map f).drop s).take m = (List.range m).map (fun k => f (s + k)) := by
  apply List.ext_getElem
  · simp; omega
  · intro i h1 h2
    simp

private theorem make_size_eq (s b n : Int) :
    make { start := s, step := b, size := some n } =
      .ok (if b = 0 then .constant s (some n) else finish s b n) := by
  by_cases hb : b = 0
  · subst hb; simp [make]
  · by_cases h : b > 0 <;> simp [make, bound, hb, h]

private theorem proper_finish {f b n : Int} (hb : b ≠ 0) (hn : 0 ≤ n) : Proper (finish f b n) := by
  unfold finish
  split
  · trivial
  · exact ⟨hb, by omega⟩

private theorem behaves_step {s b n : Int} (hn : 0 ≤ n) :
    Proper (if b = 0 then .constant s (some n) else finish s b n) ∧
    Behaves (if b = 0 then .constant s (some n) else finish s b n) (fun k => s + k * b) (some n.toNat) := by
  split
  · subst b
    have hp : Proper (.constant s (some n)) := by intro m hm; cases hm; exact hn
    exact ⟨hp, (behaves_constant s (some n) hp).congr (by simp)⟩
  · rename_i hb
    exact ⟨proper_finish hb hn, behaves_finish s b n hn⟩

/-- C12: `copy-sequence` gives the selected elements.  Missing: a start equal to the size, for which the
result should be empty (`copySequence_violated`). -/
theorem copySequence_partial {r : Rng} {l : List Int} (hp : Proper r) (h : Is r l) (start : Nat)
    (stop : Option Nat) (hs : start < l.length) (he : ∀ e, stop = some e → start ≤ e ∧ e ≤ l.length) :
    ∃ r', copySequence r start (stop.map Int.ofNat) = .ok r' ∧ Proper r' ∧
      Is r' ((l.drop start).take (stop.getD l.length - start)) := by
  obtain ⟨f, n, hB⟩ := hp.behaves
  obtain ⟨hn, hl⟩ := hB.of_is h
  have hel : element r start = .ok (f + start * step r) := by
    rw [hB.2, hn, if_pos (by intro m hm; injection hm; omega)]
  have hne : r ≠ .empty := by
    rintro rfl
    have := h.1
    simp [size] at this
    omega
  have hsz := h.1
  have hcs : copySequence r start (stop.map Int.ofNat) =
      make { start := f + start * step r, step := step r, size := some (((stop.getD l.length : Nat) : Int) - start) } := by
    unfold copySequence
    cases r with
    | empty => exact absurd rfl hne
    | _ =>
      simp only [hel, hsz]
      cases stop with
      | none => simp
      | some e => simp [show ¬ l.length < e by have := (he e rfl).2; omega]
  have hle : start ≤ stop.getD l.length := by
    cases stop with
    | none => simp; omega
    | some e => simpa using (he e rfl).1
  have hle2 : stop.getD l.length ≤ l.length := by
    cases stop with
    | none => simp
    | some e => simpa using (he e rfl).2
  rw [hcs, make_size_eq]
  have hb := behaves_step (s := f + start * step r) (b := step r)
    (n := ((stop.getD l.length : Nat) : Int) - start) (by omega)
  refine ⟨_, rfl, hb.1, ?_⟩
  have := hb.2.is
  convert this using 1
  have hlen : (((stop.getD l.length : Nat) : Int) - start).toNat = stop.getD l.length - start := by omega
  rw [hlen, hl, drop_take_terms _ _ _ _ (by simp; omega)]
  simp only [List.length_map, List.length_range]
  apply List.map_congr_left
  intro k _
  push_cast; ring

example : ∃ r', copySequence (.finite 0 3 5) 1 (some 3) = .ok r' ∧ Is r' [3, 6] := by
  have h := (behaves_finite 0 3 5 (by omega)).is
  obtain ⟨r', h1, -, h2⟩ := copySequence_partial (by simp [Proper]) h 1 (some 3) (by simp) (by simp)
  exact ⟨r', h1, h2⟩

/-- C12: `copy-sequence` of a range without end. -/
theorem copySequence_infinite {r : Rng} {f : Nat → Int} (hp : Proper r) (h : Behaves r f none) (start : Nat) :
    (∃ r', copySequence r start none = .ok r' ∧ Behaves r' (fun k => f (start + k)) none) ∧
    ∀ stop : Nat, start ≤ stop → ∃ r', copySequence r start (some stop) = .ok r' ∧
      Is r' ((List.range (stop - start)).map (fun k => f (start + k))) := by
  have gen : ∀ s b, (∀ k, f k = s + k * b) → step r = b → size r = none → element r start = .ok (s + start * b) →
      r ≠ .empty → (∃ r', copySequence r start none = .ok r' ∧ Behaves r' (fun k => f (start + k)) none) ∧
    ∀ stop : Nat, start ≤ stop → ∃ r', copySequence r start (some stop) = .ok r' ∧
      Is r' ((List.range (stop - start)).map (fun k => f (start + k))) := by
    intro s b hf hst hsz hel hne
    constructor
    · have : copySequence r start none = make { start := s + start * b, step := b } := by
        unfold copySequence
        cases r with
        | empty => exact absurd rfl hne
        | _ => simp only [hel, hsz]; rw [hst]
      rw [this]
      by_cases hb : b = 0
      · subst hb
        refine ⟨.constant s none, by simp [make], ?_⟩
        exact (behaves_constant s none (by simp)).congr (by intro k; simp [hf])
      · obtain ⟨r', n, h1, h2, h3⟩ := make_infinite (s + start * b) b hb
        refine ⟨r', h1, ?_⟩
        have hn : n = none := by
          cases n with
          | none => rfl
          | some m =>
            have := (h2 m).mpr (by simp [Allowed]) m rfl
            omega
        subst hn
        exact h3.congr (by intro k; simp only [hf]; push_cast; ring)
    · intro stop hle
      have : copySequence r start (some stop) =
          make { start := s + start * b, step := b, size := some ((stop : Int) - start) } := by
        unfold copySequence
        cases r with
        | empty => exact absurd rfl hne
        | _ => simp only [hel, hsz]; rw [hst]
      rw [this, make_size_eq]
      have hb := behaves_step (s := s + start * b) (b := b) (n := (stop : Int) - start) (by omega)
      refine ⟨_, rfl, ?_⟩
      have := hb.2.is
      convert this using 1
      have hlen : ((stop : Int) - start).toNat = stop - start := by omega
      rw [hlen]
      apply List.map_congr_left
      intro k _
      rw [hf]; push_cast; ring
  have hf : ∀ k : Nat, element r k = .ok (f k) := by
    intro k; rw [h.2 k, if_pos (by simp)]
  cases r with
  | empty => have := h.1; simp [size] at this
  | finite a b n => have := h.1; simp [size] at this
  | infinite a b =>
    exact gen a b (fun k => by have := hf k; simp [element] at this; omega) rfl rfl rfl (by simp)
  | constant a s =>
    cases s with
    | some n => have := h.1; simp [size] at this
    | none =>
      exact gen a 0 (fun k => by have := hf k; simp [element] at this; omega) rfl rfl (by simp [element]) (by simp)

example : ∃ r', copySequence (.infinite 1 2) 3 (some 5) = .ok r' ∧ Is r' [7, 9] := by
  obtain ⟨r', h1, h2⟩ := (copySequence_infinite (by simp [Proper]) (behaves_infinite 1 2) 3).2 5 (by omega)
  exact ⟨r', h1, h2⟩

/-- C12 fails: copying from the end of a range should give no elements but is an error; an end before the
start gives a range of negative size. -/
theorem copySequence_violated :
    copySequence (.finite 0 1 3) 3 none = .err .range ∧
    copySequence (.finite 0 1 3) 2 (some 0) = .ok (.finite 2 1 (-2)) ∧
    reverse (.constant 5 (some 0)) = .err .range := by decide

/-- C12: `reverse` of a range that is not empty. -/
theorem reverse_partial {r : Rng} {l : List Int} (hp : Proper r) (h : Is r l) (hl : l ≠ [] ∨ r = .empty) :
    ∃ r', reverse r = .ok r' ∧ Proper r' ∧ Is r' l.reverse := by
  rcases hl with hl | rfl
  · obtain ⟨r1, h1, h2, h3⟩ := copySequence_partial hp h 0 none (List.length_pos_iff.mpr hl) (by simp)
    simp at h3
    obtain ⟨r2, h4, h5, h6⟩ := reverse!_exact h2 h3
    refine ⟨r2, ?_, h5, h6⟩
    unfold reverse
    simp only [Option.map_none, Nat.cast_zero] at h1
    rw [h1]; exact h4
  · obtain ⟨r2, h4, h5, h6⟩ := reverse!_exact hp h
    exact ⟨r2, h4, h5, h6⟩

example : ∃ r', reverse (.finite 0 3 3) = .ok r' ∧ Is r' [6, 3, 0] := by
  have h := (behaves_finite 0 3 3 (by omega)).is
  obtain ⟨r', h1, -, h2⟩ := reverse_partial (by simp [Proper]) h (by decide)
  exact ⟨r', h1, h2⟩

/-- C12: `add!` on a range that is a list `l` gives a sequence with the elements of `l` and the new one
(in some order), for any large enough number of rounds of the copying loop. -/
theorem add_exact {r : Rng} {l : List Int} (hp : Proper r) (h : Is r l) (x : Int) (fuel : Nat)
    (hf : l.length < fuel) : ∃ res l', add fuel r x = .ok (some res) ∧ res.Is l' ∧ l'.Perm (x :: l) := by
  have copy : addToCopy fuel r x = .ok (some (.list (x :: l))) := by
    simp [addToCopy, shallowCopy_is hp h fuel hf]
  cases r with
  | empty =>
    have := h.unique (behaves_empty (fun _ => 0)).is
    subst this
    exact ⟨_, _, rfl, (behaves_finish x 1 1 (by omega)).is, by simp [List.range_succ]⟩
  | infinite f b => have := h.1; simp [size] at this
  | constant f s =>
    cases s with
    | none => have := h.1; simp [size] at this
    | some n =>
      have hn := hp n rfl
      have hl := h.unique (behaves_constant f (some n) hp).is
      simp only [add]
      by_cases hx : x = f
      · subst x
        rw [if_pos rfl]
        have h1 := (behaves_constant f (some (n + 1)) (by intro m hm; cases hm; omega)).is
        refine ⟨_, _, rfl, h1, ?_⟩
        rw [hl]
        have : (n + 1).toNat = n.toNat + 1 := by omega
        rw [this, List.range_succ_eq_map, List.map_cons, List.map_map]
        exact .refl _
      · rw [if_neg hx]
        by_cases h1 : (some n : Option Int) = some 1
        · rw [if_pos h1]
          injection h1 with h1; subst h1
          refine ⟨_, _, rfl, (behaves_finish f (x - f) 2 (by omega)).is, ?_⟩
          rw [hl]
          simp [List.range_succ]
          exact List.Perm.swap ..
        · rw [if_neg h1]
          exact ⟨_, _, copy, rfl, .refl _⟩
  | finite f b n =>
    have hn := hp.2
    have hl := h.unique (behaves_finite f b n (by omega)).is
    have hs : (n + 1).toNat = n.toNat + 1 := by omega
    simp only [add]
    by_cases h1 : x = f + b * (n - 1) + b
    · rw [if_pos h1]
      refine ⟨_, _, rfl, (behaves_finite f b (n + 1) (by omega)).is, ?_⟩
      rw [hl, hs, List.range_succ, List.map_append]
      have : f + (n.toNat : Int) * b = x := by
        have : (n.toNat : Int) = n := by omega
        rw [this, h1]; ring
      simp only [List.map_cons, List.map_nil, this]
      exact List.perm_append_comm
    · rw [if_neg h1]
      by_cases h2 : x = f - b
      · rw [if_pos h2]
        refine ⟨_, _, rfl, (behaves_finite (f - b) b (n + 1) (by omega)).is, ?_⟩
        rw [hl, hs, List.range_succ_eq_map, List.map_cons, List.map_map]
        have e : ((fun k : Nat => f - b + (k : Int) * b) ∘ Nat.succ) = fun k : Nat => f + (k : Int) * b := by
          funext k; simp only [Function.comp]; push_cast; ring
        rw [e]
        simp [h2]
      · rw [if_neg h2]
        by_cases h3 : n = 1
        · rw [if_pos h3]
          subst h3
          by_cases h4 : x = f
          · rw [if_pos h4]
            refine ⟨_, _, rfl, (behaves_constant x (some 2) (by simp)).is, ?_⟩
            rw [hl, h4]
            simp [List.range_succ]
          · rw [if_neg h4]
            refine ⟨_, _, rfl, (behaves_finite f (x - f) 2 (by omega)).is, ?_⟩
            rw [hl]
            simp [List.range_succ]
            exact List.Perm.swap ..
        · rw [if_neg h3]
          exact ⟨_, _, copy, rfl, .refl _⟩

example : ∃ res l', add 10 (.finite 0 1 3) 3 = .ok (some res) ∧ res.Is l' ∧ l'.Perm [3, 0, 1, 2] := by
  exact add_exact (by simp [Proper]) (behaves_finite 0 1 3 (by omega)).is 3 10 (by simp)

/-! ### remove! -/

private theorem without_of_notMem (x : Int) (c : Option Nat) (l : List Int) (h : x ∉ l) : without x c l = l := by
  induction l generalizing c with
  | nil => cases c with | none => rfl | some c => cases c <;> rfl
  | cons y l ih =>
    have h1 : y ≠ x := by rintro rfl; simp at h
    have h2 : x ∉ l := by simp at h; exact h.2
    cases c with
    | none => simp [without, h1, ih none h2]
    | some c => cases c with
      | zero => rfl
      | succ c => simp [without, h1, ih (some (c + 1)) h2]

private theorem without_zero (x : Int) (l : List Int) : without x (some 0) l = l := by
  cases l <;> rfl

private theorem without_cons_self (x : Int) (c : Option Nat) (l : List Int) (hc : c ≠ some 0) (h : x ∉ l) :
    without x c (x :: l) = l := by
  cases c with
  | none => simp [without, without_of_notMem x none l h]
  | some c => cases c with
    | zero => exact absurd rfl hc
    | succ c => simp [without, without_of_notMem x (some c) l h]

private theorem without_append_self (x : Int) (c : Option Nat) (l : List Int) (hc : c ≠ some 0) (h : x ∉ l) :
    without x c (l ++ [x]) = l := by
  induction l with
  | nil => exact without_cons_self x c [] hc (by simp)
  | cons y l ih =>
    have h1 : y ≠ x := by rintro rfl; simp at h
    have h2 : x ∉ l := by simp at h; exact h.2
    cases c with
    | none => simpa [without, h1] using ih h2
    | some c => cases c with
      | zero => exact absurd rfl hc
      | succ c => simpa [without, h1] using ih h2

private theorem mem_terms {f b x : Int} {n : Nat} :
    x ∈ (List.range n).map (fun k : Nat => f + k * b) ↔ ∃ k : Nat, k < n ∧ f + k * b = x := by
  simp

/-- C12, `remove!` with the default test: when the value is the first or the last element of a finite
range, when it is not an element, or when the count is 0, the result has the elements without the removed
ones.  Missing (`remove_violated`): an element in the middle, and constant ranges. -/
theorem remove_partial {f b n : Int} {l : List Int} (hp : Proper (.finite f b n)) (h : Is (.finite f b n) l)
    (x : Int) (count : Option Nat) (fuel : Nat)
    (hx : l.head? = some x ∨ l.getLast? = some x ∨ x ∉ l ∨ count = some 0) :
    ∃ res, remove fuel (.finite f b n) x none count = .ok (some res) ∧ res.Is (without x count l) := by
  have hn := hp.2
  have hb := hp.1
  have hl := h.unique (behaves_finite f b n (by omega)).is
  have inj : ∀ j k : Nat, f + j * b = f + k * b → j = k := by
    intro j k hjk
    have := mul_right_cancel₀ hb (show (j : Int) * b = k * b by omega)
    omega
  have hlast : ∀ m : Nat, (m : Int) = n - 1 → f + b * (n - 1) = f + m * b := by
    intro m hm; rw [hm]; ring
  simp only [remove]
  by_cases hc : count = some 0
  · rw [if_pos hc, hc, without_zero]
    exact ⟨_, rfl, h⟩
  rw [if_neg hc]
  obtain ⟨m, hm⟩ : ∃ m : Nat, n.toNat = m + 1 := ⟨n.toNat - 1, by omega⟩
  rw [hm] at hl
  by_cases h1 : n = 1 ∧ x = f
  · rw [if_pos h1]
    obtain rfl : m = 0 := by omega
    refine ⟨_, rfl, ?_⟩
    have : l = [x] := by rw [hl]; simp [List.range_succ, h1.2]
    rw [this, without_cons_self x count [] hc (by simp)]
    exact (behaves_empty (fun _ => 0)).is
  rw [if_neg h1]
  by_cases h2 : x = f + b * (n - 1)
  · rw [if_pos h2]
    refine ⟨_, rfl, ?_⟩
    have hx' : x = f + m * b := by rw [h2]; exact hlast m (by omega)
    rw [hl, List.range_succ, List.map_append, List.map_cons, List.map_nil, ← hx',
      without_append_self x count _ hc (by
        rw [mem_terms]; rintro ⟨k, hk, he⟩
        have := inj k m (by rw [he, hx'])
        omega)]
    have := (behaves_finite f b (n - 1) (by omega)).is
    have e : (n - 1).toNat = m := by omega
    rw [e] at this
    exact this
  rw [if_neg h2]
  by_cases h3 : x = f
  · rw [if_pos h3]
    refine ⟨_, rfl, ?_⟩
    have e : ((fun k : Nat => f + (k : Int) * b) ∘ Nat.succ) = fun k : Nat => f + b + (k : Int) * b := by
      funext k; simp only [Function.comp]; push_cast; ring
    rw [hl, List.range_succ_eq_map, List.map_cons, List.map_map, e]
    have e2 : f + ((0 : Nat) : Int) * b = x := by simp [h3]
    rw [e2, without_cons_self x count _ hc (by
        rw [mem_terms]; rintro ⟨k, hk, he⟩
        have := inj (k + 1) 0 (by rw [h3] at he; push_cast; linarith)
        omega)]
    have := (behaves_finite (f + b) b (n - 1) (by omega)).is
    have e : (n - 1).toNat = m := by omega
    rw [e] at this
    exact this
  rw [if_neg h3]
  have hmem : x ∉ l := by
    rcases hx with hx | hx | hx | hx
    · exfalso; apply h3
      rw [hl, List.range_succ_eq_map] at hx
      simp at hx; exact hx.symm
    · exfalso; apply h2
      rw [hl, List.range_succ, List.map_append] at hx
      simp at hx
      rw [hlast m (by omega)]; exact hx.symm
    · exact hx
    · exact absurd hx hc
  have hmf : member x (.finite f b n) = false := by
    rw [Bool.eq_false_iff]
    intro hc'
    rw [member_partial hp (by simp [NotHollow])] at hc'
    obtain ⟨k, hk⟩ := hc'
    rw [h.2 k] at hk
    cases hlk : l[k]? with
    | none => rw [hlk] at hk; cases hk
    | some y =>
      rw [hlk] at hk
      injection hk with hk
      subst hk
      exact hmem (List.mem_of_getElem? hlk)
  rw [without_of_notMem x count l hmem]
  cases count with
  | none => exact ⟨_, rfl, h⟩
  | some c => simp only [hmf]; exact ⟨_, rfl, h⟩

example : ∃ res, remove 10 (.finite 0 1 4) 3 none none = .ok (some res) ∧ res.Is [0, 1, 2] := by
  have h := (behaves_finite 0 1 4 (by omega)).is
  exact remove_partial (by simp [Proper]) h 3 none 10 (by right; left; decide)

private theorem is_unique_res {res : Res} {l l' : List Int} (h : res.Is l) (h' : res.Is l') : l = l' := by
  cases res with
  | rng r => exact Is.unique h h'
  | list k => exact (show k = l from h).symm.trans h'

/-- C12 fails: removing an element in the middle of a range leaves it in; with a count (and no test) it is
an error; removing a value from a constant range removes one occurrence only; and removing a value that is
not in a constant range of one element gives the empty range. -/
theorem remove_violated (fuel : Nat) :
    remove fuel (.finite 0 1 3) 1 none none = .ok (some (.rng (.finite 0 1 3))) ∧
    remove (fuel + 4) (.finite 0 1 3) 1 none (some 1) = .err .type ∧
    remove fuel (.constant 5 (some 3)) 5 none none = .ok (some (.rng (.constant 5 (some 2)))) ∧
    remove fuel (.constant 5 (some 1)) 7 none none = .ok (some (.rng .empty)) := by
  refine ⟨rfl, ?_, rfl, rfl⟩
  have h := (behaves_finite 0 1 3 (by omega)).is
  have hs := shallowCopy_is (by simp [Proper]) h (fuel + 4) (by simp)
  simp only [remove, removeFromCopy, hs]
  decide

/-! ## C40: iteration and equality -/

/-- C40: iteration visits the elements in order, and stops by itself after the last. -/
theorem forward_exact {r : Rng} {l : List Int} (hp : Proper r) (h : Is r l) (fuel : Nat) :
    forward fuel r = (l.take fuel, decide (l.length < fuel)) := forward_is hp h fuel

/-- C40: iteration over a range without end visits its elements in order and does not stop. -/
theorem forward_infinite {r : Rng} {f : Nat → Int} (h : Behaves r f none) (fuel : Nat) :
    forward fuel r = ((List.range fuel).map f, false) := by
  have hf : ∀ k : Nat, element r k = .ok (f k) := by
    intro k; rw [h.2 k, if_pos (by simp)]
  cases r with
  | empty => have := h.1; simp [size] at this
  | finite a b n => have := h.1; simp [size] at this
  | infinite a b =>
    have := iterate_none (fun _ : Int => false) id (· + b) (fun k : Nat => a + k * b)
      (by intro k; push_cast; ring) (by simp) fuel 0
    simp only [Nat.cast_zero, zero_mul, add_zero] at this
    rw [forward, this, List.range_eq_range']
    congr 1
    apply List.map_congr_left
    intro k _
    have := hf k
    simpa [element] using this
  | constant a s =>
    cases s with
    | some n => have := h.1; simp [size] at this
    | none =>
      have := iterate_none (fun _ : Int => false) (fun _ => a) (· + 1) (fun k : Nat => (k : Int))
        (by intro k; push_cast; ring) (by simp) fuel 0
      simp only [Nat.cast_zero] at this
      rw [forward, this, List.range_eq_range']
      congr 1
      apply List.map_congr_left
      intro k _
      have := hf k
      simpa [element] using this

/-- C40: backward iteration visits the elements from the last to the first, and is an error for a range
without end. -/
theorem backward_exact {r : Rng} (hp : Proper r) (fuel : Nat) :
    (∀ l, Is r l → backward fuel r = .ok (l.reverse.take fuel, decide (l.length < fuel))) ∧
    (size r = none → backward fuel r = .err .infinite) := by
  refine ⟨fun l h => backward_is hp h fuel, fun h => ?_⟩
  cases r with
  | empty => simp [size] at h
  | finite a b n => simp [size] at h
  | infinite a b => rfl
  | constant a s => cases s with | none => rfl | some n => simp [size] at h

example : forward 10 (.finite 9 (-3) 4) = ([9, 6, 3, 0], true) ∧ backward 10 (.finite 9 (-3) 4) = .ok ([0, 3, 6, 9], true) := by
  have h := (behaves_finite 9 (-3) 4 (by omega)).is
  exact ⟨(forward_exact (by simp [Proper]) h 10).trans (by decide),
    ((backward_exact (by simp [Proper]) 10).1 _ h).trans (by decide)⟩

/-- C40: the current key of the iteration is the key of the current element. -/
theorem currentKey_exact {f b : Int} (hb : b ≠ 0) (k : Nat) (n : Int) :
    element (.infinite f b) (currentKey f b (f + k * b)) = .ok (f + k * b) ∧
    ((k : Int) < n → element (.finite f b n) (currentKey f b (f + k * b)) = .ok (f + k * b)) := by
  have : currentKey f b (f + k * b) = k := by
    unfold currentKey
    rw [show f + k * b - f = k * b by ring, floorDiv_mul hb]
  rw [this]
  refine ⟨rfl, fun hk => ?_⟩
  simp [element, hk]

/-- C40: equal ranges have the same elements. -/
theorem equal_sound {r1 r2 : Rng} (h : equal r1 r2 = true) : Same r1 r2 := by
  have : r1 = r2 := by
    unfold equal at h
    split at h <;> simp_all
  subst this
  exact ⟨rfl, fun _ => rfl⟩

/-- C40: ranges with the same elements are equal when both are finite ranges of more than one element, or
both infinite, or both constant and not without elements.  Missing (`equal_violated`): one element. -/
theorem equal_complete_partial {r1 r2 : Rng} (h1 : Proper r1) (h2 : Proper r2) (hh1 : NotHollow r1)
    (hh2 : NotHollow r2) (hs1 : size r1 ≠ some 1) (h : Same r1 r2) : equal r1 r2 = true := by
  obtain ⟨hsz, hel⟩ := h
  have e0 := hel 0
  have e1 := hel 1
  cases r1 with
  | empty =>
    cases r2 with
    | empty => rfl
    | infinite f b => simp [size] at hsz
    | finite f b n => simp [size] at hsz; have := h2.2; omega
    | constant f s => simp [size] at hsz; subst hsz; exact absurd rfl (hh2 f)
  | infinite f b =>
    cases r2 with
    | empty => simp [size] at hsz
    | infinite f' b' => simp [element] at e0 e1; simp [equal]; omega
    | finite f' b' n => simp [size] at hsz
    | constant f' s =>
      simp [size] at hsz; subst hsz
      have : b ≠ 0 := h1
      simp [element] at e0 e1; omega
  | constant f s =>
    cases r2 with
    | empty => simp [size] at hsz; subst hsz; exact absurd rfl (hh1 f)
    | infinite f' b' =>
      simp [size] at hsz; subst hsz
      have : b' ≠ 0 := h2
      simp [element] at e0 e1; omega
    | finite f' b' n =>
      simp [size] at hsz; subst hsz
      have := h2.1
      have := h2.2
      have : n ≠ 1 := by simpa [size] using hs1
      simp [element, show (0 : Int) < n by omega, show (1 : Int) < n by omega] at e0 e1
      omega
    | constant f' s' =>
      simp [size] at hsz; subst hsz
      simp only [equal, decide_true, Bool.and_true, decide_eq_true_eq]
      cases s with
      | none => simpa [element] using e0
      | some n =>
        have := h1 n rfl
        have h0 : n ≠ 0 := by rintro rfl; exact hh1 f rfl
        simpa [element, show (0 : Int) < n by omega] using e0
  | finite f b n =>
    have := h1.1
    have := h1.2
    have hn1 : n ≠ 1 := by simpa [size] using hs1
    cases r2 with
    | empty => simp [size] at hsz; omega
    | infinite f' b' => simp [size] at hsz
    | constant f' s =>
      simp [size] at hsz; subst hsz
      simp [element, show (0 : Int) < n by omega, show (1 : Int) < n by omega] at e0 e1
      omega
    | finite f' b' n' =>
      simp [size] at hsz; subst hsz
      simp [element, show (0 : Int) < n by omega, show (1 : Int) < n by omega] at e0 e1
      simp [equal]
      omega

example : Same (.finite 0 2 3) (.finite 0 2 3) ∧ equal (.finite 0 2 3) (.finite 0 2 3) = true := by
  refine ⟨⟨rfl, fun _ => rfl⟩, by decide⟩

/-- C40 fails for one element: the same element with a different step makes the ranges differ. -/
theorem equal_violated : Is (.finite 4 1 1) [4] ∧ Is (.finite 4 2 1) [4] ∧ Is (.constant 4 (some 1)) [4] ∧
    equal (.finite 4 1 1) (.finite 4 2 1) = false ∧ equal (.finite 4 1 1) (.constant 4 (some 1)) = false := by
  refine ⟨(behaves_finite 4 1 1 (by omega)).is, (behaves_finite 4 2 1 (by omega)).is,
    (behaves_constant 4 (some 1) (by simp)).is, by decide, by decide⟩

end Verif.Range
