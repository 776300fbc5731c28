import Verif.Table.Spec
import Mathlib.Data.Nat.ModEq
import Mathlib.Data.Nat.Prime.Basic
import Mathlib.Data.Fintype.EquivFin

/-! # Helper lemmas for hash tables: probing, sizes, rehashing -/

namespace Verif.Table

/-! ### counting -/

/-- The number of indices below `n` that satisfy `p`. -/
def cnt (p : Nat → Bool) : Nat → Nat
  | 0 => 0
  | n + 1 => cnt p n + (if p n then 1 else 0)

theorem cnt_le (p : Nat → Bool) (n : Nat) : cnt p n ≤ n := by
  induction n with
  | zero => simp [cnt]
  | succ n ih => simp only [cnt]; split <;> omega

theorem cnt_congr {p q : Nat → Bool} {n : Nat} (h : ∀ i, i < n → p i = q i) : cnt p n = cnt q n := by
  induction n with
  | zero => rfl
  | succ n ih =>
    simp only [cnt]
    rw [ih (fun i hi => h i (by omega)), h n (by omega)]

theorem cnt_mono {p q : Nat → Bool} {n : Nat} (h : ∀ i, i < n → p i = true → q i = true) :
    cnt p n ≤ cnt q n := by
  induction n with
  | zero => simp [cnt]
  | succ n ih =>
    simp only [cnt]
    have h1 := ih (fun i hi => h i (by omega))
    have h2 := h n (by omega)
    by_cases hp : p n = true
    · rw [if_pos hp, if_pos (h2 hp)]; omega
    · rw [if_neg hp]; omega

theorem cnt_lt_exists {p : Nat → Bool} {n : Nat} (h : cnt p n < n) : ∃ i, i < n ∧ p i = false := by
  induction n with
  | zero => omega
  | succ n ih =>
    simp only [cnt] at h
    by_cases hp : p n = true
    · rw [if_pos hp] at h
      obtain ⟨i, hi, e⟩ := ih (by omega)
      exact ⟨i, by omega, e⟩
    · exact ⟨n, by omega, by simpa using hp⟩

theorem cnt_upd {p q : Nat → Bool} {i n : Nat} (hi : i < n) (h : ∀ j, j ≠ i → p j = q j) :
    cnt p n + (if q i then 1 else 0) = cnt q n + (if p i then 1 else 0) := by
  induction n with
  | zero => omega
  | succ n ih =>
    simp only [cnt]
    by_cases e : i = n
    · subst e
      rw [cnt_congr (p := p) (q := q) (fun j hj => h j (by omega))]
      omega
    · have := ih (by omega)
      rw [h n (by omega)]
      omega

theorem cnt_false (n : Nat) : cnt (fun _ => false) n = 0 := by
  induction n with
  | zero => rfl
  | succ n ih => simp [cnt, ih]

theorem cnt_add {p q r : Nat → Bool} {n : Nat}
    (h : ∀ i, i < n → (if p i then 1 else 0) = (if q i then 1 else 0) + (if r i then 1 else (0 : Nat))) :
    cnt p n = cnt q n + cnt r n := by
  induction n with
  | zero => rfl
  | succ n ih =>
    simp only [cnt]
    rw [ih (fun i hi => h i (by omega)), h n (by omega)]
    omega

/-! ### sizes -/

/-- A number of entries that a table vector may have. -/
def Good (c : Nat) : Prop := c ∈ entryCounts ∧ 31 ≤ c

set_option maxRecDepth 100000 in
theorem good_all : ∀ c ∈ entryCounts, 31 ≤ c → c % 2 = 1 ∧ ∀ s ∈ strides, Nat.gcd c s = 1 := by
  decide +kernel

theorem Good.odd {c : Nat} (h : Good c) : c % 2 = 1 := (good_all c h.1 h.2).1

theorem Good.coprime {c s : Nat} (h : Good c) (hs : s ∈ strides) : Nat.Coprime c s :=
  (good_all c h.1 h.2).2 s hs

theorem Good.limit_lt {c : Nat} (h : Good c) : limitOf c < c := by
  have := h.2; unfold limitOf; omega

theorem getD_mem {l : List Nat} {i d : Nat} (h : i < l.length) : l.getD i d ∈ l := by
  rw [List.getD_eq_getElem?_getD, List.getElem?_eq_getElem h]
  exact List.getElem_mem _

theorem searchLoop_spec (needed : Int) (fuel lower upper : Nat) (hf : upper - lower < fuel)
    (hl : lower ≤ upper) (hu : upper < entryCounts.length)
    (hn : needed ≤ entryCounts.getD upper 0) :
    searchLoop needed fuel lower upper ∈ entryCounts ∧
      needed ≤ searchLoop needed fuel lower upper := by
  induction fuel generalizing lower upper with
  | zero => omega
  | succ fuel ih =>
    simp only [searchLoop]
    by_cases e : lower = upper
    · rw [if_pos e]
      subst e
      refine ⟨?_, hn⟩
      exact getD_mem hu
    · rw [if_neg e]
      by_cases hlt : (entryCounts.getD ((lower + upper) / 2) 0 : Int) < needed
      · rw [if_pos hlt]
        exact ih _ _ (by omega) (by omega) hu hn
      · rw [if_neg hlt]
        exact ih _ _ (by omega) (by omega) (by omega) (by omega)

theorem computeEntryCount_spec {d : Int} {c : Nat} (h : computeEntryCount d = some c) :
    Good c ∧ d < limitOf c := by
  unfold computeEntryCount at h
  simp only at h
  have hd : d ≤ (if d < 0 then 0 else d) ∧ 0 ≤ (if d < 0 then 0 else d) := by split <;> omega
  generalize (if d < 0 then 0 else d) = d' at h hd
  by_cases hle : max (ceilThreshold d') 31 ≤ entryCounts.getD (entryCounts.length - 1) 0
  · rw [if_pos hle] at h
    have hc := searchLoop_spec (max (ceilThreshold d') 31) 81 0
      (entryCounts.length - 1) (by decide) (by decide) (by decide) hle
    injection h with hx
    unfold searchForEntryCount at hx
    rw [hx] at hc
    obtain ⟨h1, h2⟩ := hc
    have hg : Good c := ⟨h1, by omega⟩
    refine ⟨hg, ?_⟩
    have hodd := hg.odd
    have h4 : ceilThreshold d' ≤ c := by omega
    unfold ceilThreshold at h4
    unfold limitOf
    omega
  · rw [if_neg hle] at h; cases h

/-! ### probing -/

theorem stride_mem (id : Int) : secondaryStride id ∈ strides := by
  unfold secondaryStride
  have : (id % 8).toNat < strides.length := by
    have : strides.length = 8 := rfl
    omega
  exact getD_mem this

theorem stride_bounds {s : Nat} (h : s ∈ strides) : 0 < s ∧ s < 31 := by
  revert h; revert s; decide

theorem primaryIndex_lt {id : Int} {c : Nat} (hc : 0 < c) : primaryIndex id c < c := by
  unfold primaryIndex
  have h1 := Int.emod_nonneg id (b := (c : Int)) (by omega)
  have h2 := Int.emod_lt_of_pos id (b := (c : Int)) (by omega)
  omega

theorem nextIndex_eq {c s i : Nat} (hs : s < c) (hi : i < c) :
    nextIndex c s i = (i + (c - s)) % c := by
  unfold nextIndex
  by_cases h : (i : Int) - s < 0
  · rw [if_pos h, Nat.mod_eq_of_lt (by omega)]; omega
  · rw [if_neg h]
    have : i + (c - s) = (i - s) + c := by omega
    rw [this, Nat.add_mod_right, Nat.mod_eq_of_lt (by omega)]

/-- The `n`-th index of the probe sequence. -/
def walk (c : Nat) (id : Int) (n : Nat) : Nat :=
  (nextIndex c (secondaryStride id))^[n] (primaryIndex id c)

theorem iter_eq {c s p : Nat} (hs : s < c) (hp : p < c) (n : Nat) :
    (nextIndex c s)^[n] p = (p + n * (c - s)) % c := by
  induction n with
  | zero => simp [Nat.mod_eq_of_lt hp]
  | succ n ih =>
    rw [Function.iterate_succ_apply', ih, nextIndex_eq hs (Nat.mod_lt _ (by omega)),
      Nat.mod_add_mod]
    congr 1
    rw [Nat.add_mul]; omega

theorem walk_lt {c : Nat} (h : Good c) (id : Int) (n : Nat) : walk c id n < c := by
  have hc := h.2
  have hs := stride_bounds (stride_mem id)
  unfold walk
  rw [iter_eq (by omega) (primaryIndex_lt (by omega))]
  exact Nat.mod_lt _ (by omega)

theorem walk_inj {c : Nat} (h : Good c) (id : Int) {a b : Nat} (ha : a < c) (hb : b < c)
    (e : walk c id a = walk c id b) : a = b := by
  have hc := h.2
  have hs := stride_bounds (stride_mem id)
  have cop : Nat.Coprime c (c - secondaryStride id) :=
    (Nat.coprime_self_sub_right (by omega)).2 (h.coprime (stride_mem id))
  have key : ∀ a b : Nat, a ≤ b → b < c → walk c id a = walk c id b → a = b := by
    intro a b hab hb e
    unfold walk at e
    rw [iter_eq (by omega) (primaryIndex_lt (by omega)),
      iter_eq (by omega) (primaryIndex_lt (by omega))] at e
    generalize c - secondaryStride id = s at e cop
    have e2 : c ∣ (primaryIndex id c + b * s) - (primaryIndex id c + a * s) :=
      (Nat.modEq_iff_dvd' (by have := Nat.mul_le_mul_right s hab; omega)).1 e
    have e3 : (primaryIndex id c + b * s) - (primaryIndex id c + a * s) = (b - a) * s := by
      rw [Nat.sub_mul]; omega
    rw [e3] at e2
    have := cop.dvd_of_dvd_mul_right e2
    have := Nat.eq_zero_of_dvd_of_lt this (by omega)
    omega
  rcases Nat.le_total a b with hle | hle
  · exact key _ _ hle hb e
  · exact (key _ _ hle ha e.symm).symm

theorem walk_surj {c : Nat} (h : Good c) (id : Int) {i : Nat} (hi : i < c) :
    ∃ n, n < c ∧ walk c id n = i := by
  let f : Fin c → Fin c := fun n => ⟨walk c id n, walk_lt h id n⟩
  have inj : Function.Injective f := by
    intro a b e
    exact Fin.ext (walk_inj h id a.2 b.2 (congrArg Fin.val e))
  obtain ⟨n, e⟩ := Finite.surjective_of_injective inj ⟨i, hi⟩
  exact ⟨n, n.2, congrArg Fin.val e⟩

theorem probe_some {stop : Nat → Bool} {c s fuel p j : Nat}
    (h : probe stop c s fuel p = some j) :
    ∃ n, n < fuel ∧ (nextIndex c s)^[n] p = j ∧ stop j = true ∧
      ∀ m, m < n → stop ((nextIndex c s)^[m] p) = false := by
  induction fuel generalizing p with
  | zero => simp [probe] at h
  | succ fuel ih =>
    simp only [probe] at h
    by_cases hs : stop p = true
    · rw [if_pos hs] at h
      cases h
      exact ⟨0, by omega, rfl, hs, by intros; omega⟩
    · rw [if_neg hs] at h
      obtain ⟨n, h1, h2, h3, h4⟩ := ih h
      refine ⟨n + 1, by omega, h2, h3, ?_⟩
      intro m hm
      cases m with
      | zero => simpa using hs
      | succ m => exact h4 m (by omega)

theorem probe_none {stop : Nat → Bool} {c s fuel p : Nat}
    (h : probe stop c s fuel p = none) :
    ∀ n, n < fuel → stop ((nextIndex c s)^[n] p) = false := by
  induction fuel generalizing p with
  | zero => intros; omega
  | succ fuel ih =>
    simp only [probe] at h
    by_cases hs : stop p = true
    · rw [if_pos hs] at h; cases h
    · rw [if_neg hs] at h
      intro n hn
      cases n with
      | zero => simpa using hs
      | succ n => exact ih h n (by omega)

/-- The probe sequence for `id` reaches `i` before any entry satisfying `p`. -/
def Reach (p : Nat → Prop) (c : Nat) (id : Int) (i : Nat) : Prop :=
  ∃ n, n < c ∧ walk c id n = i ∧ ∀ m, m < n → p (walk c id m)

theorem probe_ok {stop : Nat → Bool} {c : Nat} (h : Good c) (id : Int)
    (hs : ∃ i, i < c ∧ stop i = true) :
    ∃ j, probe stop c (secondaryStride id) c (primaryIndex id c) = some j ∧ j < c ∧
      stop j = true ∧ Reach (fun i => stop i = false) c id j := by
  cases hp : probe stop c (secondaryStride id) c (primaryIndex id c) with
  | none =>
    obtain ⟨i, hi, hsi⟩ := hs
    obtain ⟨n, hn, e⟩ := walk_surj h id hi
    have := probe_none hp n hn
    unfold walk at e
    rw [e, hsi] at this
    cases this
  | some j =>
    obtain ⟨n, h1, h2, h3, h4⟩ := probe_some hp
    refine ⟨j, rfl, ?_, h3, n, h1, h2, h4⟩
    have : walk c id n = j := h2
    rw [← this]
    exact walk_lt h id n

end Verif.Table
