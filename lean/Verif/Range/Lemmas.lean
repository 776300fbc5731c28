import Mathlib.Data.Int.ModEq
import Mathlib.Tactic.Ring
import Mathlib.Tactic.Linarith
import Verif.Range.Spec
/-
Helper lemmas about the range model.
-/
namespace Verif.Range

/-! ### floor division -/

theorem le_floorDiv_pos {x y b : Int} (hb : 0 < b) : x ≤ floorDiv y b ↔ x * b ≤ y := by
  unfold floorDiv
  rw [Int.fdiv_eq_ediv_of_nonneg _ hb.le]
  exact Int.le_ediv_iff_mul_le hb

theorem floorDiv_neg (y b : Int) : floorDiv (-y) (-b) = floorDiv y b := by
  unfold floorDiv
  exact Int.neg_fdiv_neg ..

theorem le_floorDiv_neg {x y b : Int} (hb : b < 0) : x ≤ floorDiv y b ↔ y ≤ x * b := by
  rw [← floorDiv_neg, le_floorDiv_pos (by omega), mul_neg, neg_le_neg_iff]

theorem floorDiv_add_self {y b : Int} (hb : b ≠ 0) : floorDiv (y + b) b = floorDiv y b + 1 := by
  rcases lt_or_gt_of_ne hb with h | h
  · apply le_antisymm
    · have := (le_floorDiv_neg h).mp (le_refl (floorDiv (y + b) b))
      have h2 : floorDiv (y + b) b - 1 ≤ floorDiv y b := (le_floorDiv_neg h).mpr (by linarith)
      omega
    · have := (le_floorDiv_neg h).mp (le_refl (floorDiv y b))
      exact (le_floorDiv_neg h).mpr (by linarith)
  · apply le_antisymm
    · have := (le_floorDiv_pos h).mp (le_refl (floorDiv (y + b) b))
      have h2 : floorDiv (y + b) b - 1 ≤ floorDiv y b := (le_floorDiv_pos h).mpr (by linarith)
      omega
    · have := (le_floorDiv_pos h).mp (le_refl (floorDiv y b))
      exact (le_floorDiv_pos h).mpr (by linarith)

theorem floorDiv_mul {k b : Int} (hb : b ≠ 0) : floorDiv (k * b) b = k := by
  unfold floorDiv
  exact Int.mul_fdiv_cancel _ hb

/-! ### Behaves and Is -/

theorem behaves_finite (f b n : Int) (hn : 0 ≤ n) :
    Behaves (.finite f b n) (fun k => f + k * b) (some n.toNat) := by
  constructor
  · simp [size, hn]
  · intro k
    simp only [element, missing]
    have : (((k : Int) ≥ 0 ∧ (k : Int) < n) ↔ ∀ m, some n.toNat = some m → k < m) := by
      constructor
      · rintro ⟨_, h⟩ m hm; injection hm; omega
      · intro h; have := h _ rfl; omega
    by_cases h : ((k : Int) ≥ 0 ∧ (k : Int) < n)
    · rw [if_pos h, if_pos (this.mp h)]
    · rw [if_neg h, if_neg (fun h' => h (this.mpr h'))]

theorem behaves_empty (g : Nat → Int) : Behaves .empty g (some 0) := by
  constructor
  · rfl
  · intro k
    simp [element, missing]

theorem behaves_infinite (f b : Int) : Behaves (.infinite f b) (fun k => f + k * b) none := by
  constructor
  · rfl
  · intro k
    simp [element]

theorem behaves_constant (f : Int) (s : Option Int) (hs : ∀ n, s = some n → 0 ≤ n) :
    Behaves (.constant f s) (fun _ => f) (s.map Int.toNat) := by
  cases s with
  | none => exact ⟨rfl, fun k => by simp [element]⟩
  | some n =>
    have := hs n rfl
    refine ⟨by simp [size, this], fun k => ?_⟩
    simp only [element, missing, Option.map_some]
    have : ((k : Int) < n ↔ ∀ m, some n.toNat = some m → k < m) := by
      constructor
      · rintro h m hm; injection hm; omega
      · intro h; have := h _ rfl; omega
    by_cases h : ((k : Int) < n)
    · rw [if_pos h, if_pos (this.mp h)]
    · rw [if_neg h, if_neg (fun h' => h (this.mpr h'))]

theorem behaves_finish (f b n : Int) (hn : 0 ≤ n) :
    Behaves (finish f b n) (fun k => f + k * b) (some n.toNat) := by
  unfold finish
  split
  · subst n; exact behaves_empty _
  · exact behaves_finite _ _ _ hn

theorem size_finish (f b n : Int) : size (finish f b n) = some n := by
  unfold finish
  split
  · subst n; rfl
  · rfl

theorem Behaves.congr {r : Rng} {f g : Nat → Int} {n : Option Nat} (h : Behaves r f n)
    (hfg : ∀ k, f k = g k) : Behaves r g n := by
  have : f = g := funext hfg
  rw [← this]; exact h

theorem Behaves.is {r : Rng} {f : Nat → Int} {n : Nat} (h : Behaves r f (some n)) :
    Is r ((List.range n).map f) := by
  refine ⟨by rw [h.1]; simp, fun k => ?_⟩
  rw [h.2 k]
  by_cases hk : k < n
  · rw [if_pos (by simpa using hk)]
    simp [hk]
  · rw [if_neg (by simpa using hk)]
    simp [hk]

theorem Is.unique {r : Rng} {l l' : List Int} (h : Is r l) (h' : Is r l') : l = l' := by
  apply List.ext_getElem?
  intro k
  have h1 := h.2 k
  rw [h'.2 k] at h1
  cases h2 : l[k]? <;> cases h3 : l'[k]? <;> rw [h2, h3] at h1 <;> simp_all

theorem Behaves.of_is {r : Rng} {f : Nat → Int} {n : Option Nat} {l : List Int} (h : Behaves r f n)
    (h' : Is r l) : n = some l.length ∧ l = (List.range l.length).map f := by
  have h1 := h.1
  rw [h'.1] at h1
  cases n with
  | none => simp at h1
  | some m =>
    have : m = l.length := by simpa using h1.symm
    subst this
    exact ⟨rfl, h'.unique h.is⟩

/-- The function and length of a proper range. -/
theorem Proper.behaves {r : Rng} (h : Proper r) : ∃ f n, Behaves r (fun k => f + k * step r) n := by
  cases r with
  | empty => exact ⟨0, _, behaves_empty _⟩
  | constant f s => exact ⟨f, _, (behaves_constant f s h).congr (by simp [step])⟩
  | finite f b n => exact ⟨f, _, behaves_finite f b n (by have := h.2; omega)⟩
  | infinite f b => exact ⟨f, _, behaves_infinite f b⟩

/-! ### iteration -/

theorem iterate_eq {S : Type} (fin : S → Bool) (cur : S → Int) (next : S → S) (g : Nat → S) (n : Nat)
    (hg : ∀ k, g (k + 1) = next (g k)) (hfin : ∀ k, k ≤ n → fin (g k) = decide (k = n)) :
    ∀ fuel k, k ≤ n → iterate fin cur next fuel (g k) =
      (((List.range' k (n - k)).map (cur ∘ g)).take fuel, decide (n - k < fuel)) := by
  intro fuel
  induction fuel with
  | zero => intro k _; simp [iterate]
  | succ fuel ih =>
    intro k hk
    rw [iterate, hfin k hk]
    by_cases h : k = n
    · subst k; simp
    · rw [if_neg (by simpa using h), ← hg, ih (k + 1) (by omega)]
      have : n - k = (n - (k + 1)) + 1 := by omega
      rw [this, List.range'_succ]
      simp

theorem iterate_none {S : Type} (fin : S → Bool) (cur : S → Int) (next : S → S) (g : Nat → S)
    (hg : ∀ k, g (k + 1) = next (g k)) (hfin : ∀ k, fin (g k) = false) :
    ∀ fuel k, iterate fin cur next fuel (g k) = ((List.range' k fuel).map (cur ∘ g), false) := by
  intro fuel
  induction fuel with
  | zero => intro k; simp [iterate]
  | succ fuel ih =>
    intro k
    rw [iterate, hfin k, if_neg (by simp), ← hg, ih (k + 1), List.range'_succ]
    simp

theorem iterate_range {S : Type} (fin : S → Bool) (cur : S → Int) (next : S → S) (g : Nat → S) (n fuel : Nat)
    (hg : ∀ k, g (k + 1) = next (g k)) (hfin : ∀ k, k ≤ n → fin (g k) = decide (k = n)) :
    iterate fin cur next fuel (g 0) =
      (((List.range n).map (cur ∘ g)).take fuel, decide (n < fuel)) := by
  rw [iterate_eq fin cur next g n hg hfin fuel 0 (by omega), List.range_eq_range']
  simp

theorem terms_reverse (f : Nat → Int) (n : Nat) :
    ((List.range n).map f).reverse = (List.range n).map (fun k => f (n - 1 - k)) := by
  apply List.ext_getElem
  · simp
  · intro i h1 h2
    simp

theorem forward_finite (f b n : Int) (hb : b ≠ 0) (hn : 1 ≤ n) (fuel : Nat) :
    forward fuel (.finite f b n) =
      (((List.range n.toNat).map (fun k : Nat => f + k * b)).take fuel, decide (n.toNat < fuel)) := by
  unfold forward
  have := iterate_range (fun s => if b > 0 then decide (s > f + b * (n - 1)) else decide (s < f + b * (n - 1)))
    id (· + b) (fun k : Nat => f + k * b) n.toNat fuel (by intro k; push_cast; ring) (by
      intro k hk
      have hk' : (k : Int) ≤ n := by omega
      by_cases h : b > 0
      · simp only [if_pos h, gt_iff_lt, decide_eq_decide]
        have e : f + b * (n - 1) = f + (n - 1) * b := by ring
        rw [e]
        constructor
        · intro h1
          have : (n - 1) * b < k * b := by omega
          have := lt_of_mul_lt_mul_right this h.le
          omega
        · intro h1
          have : (k : Int) = n := by omega
          rw [this]
          have : n * b = (n - 1) * b + b := by ring
          omega
      · have h' : b < 0 := by omega
        simp only [if_neg h, decide_eq_decide]
        have e : f + b * (n - 1) = f + (n - 1) * b := by ring
        rw [e]
        constructor
        · intro h1
          by_contra h2
          have : (k : Int) ≤ n - 1 := by omega
          have := mul_le_mul_of_nonpos_right this h'.le
          omega
        · intro h1
          have : (k : Int) = n := by omega
          rw [this]
          have : n * b = (n - 1) * b + b := by ring
          omega)
  simpa [Function.comp_def] using this

theorem backward_finite (f b n : Int) (hb : b ≠ 0) (hn : 1 ≤ n) (fuel : Nat) :
    backward fuel (.finite f b n) =
      .ok ((((List.range n.toNat).map (fun k : Nat => f + k * b)).reverse).take fuel,
        decide (n.toNat < fuel)) := by
  have h := forward_finite (f + b * (n - 1)) (-b) n (by omega) hn fuel
  unfold forward at h
  unfold backward
  simp only at h ⊢
  congr 1
  rw [terms_reverse]
  convert h using 2
  · funext s
    have e : f + b * (n - 1) + -b * (n - 1) = f := by ring
    rw [e]
    rcases lt_or_gt_of_ne hb with h1 | h1
    · rw [if_neg (by omega), if_pos (by omega)]
    · rw [if_pos (by omega), if_neg (by omega)]
  · congr 1
  · congr 1
    apply List.map_congr_left
    intro k hk
    have hk := List.mem_range.mp hk
    have : ((n.toNat - 1 - k : Nat) : Int) = n - 1 - k := by omega
    rw [this]; ring

theorem forward_constant (f n : Int) (hn : 0 ≤ n) (fuel : Nat) :
    forward fuel (.constant f (some n)) =
      (((List.range n.toNat).map (fun _ => f)).take fuel, decide (n.toNat < fuel)) := by
  unfold forward
  have := iterate_range (fun i : Int => decide (i = n)) (fun _ => f) (· + 1) (fun k : Nat => (k : Int)) n.toNat fuel
    (by intro k; push_cast; ring) (by intro k hk; simp only [decide_eq_decide]; omega)
  simpa [Function.comp_def] using this

theorem backward_constant (f n : Int) (hn : 0 ≤ n) (fuel : Nat) :
    backward fuel (.constant f (some n)) =
      .ok (((List.range n.toNat).map (fun _ => f)).take fuel, decide (n.toNat < fuel)) := by
  unfold backward
  have := iterate_range (fun i : Int => decide (i = -1)) (fun _ => f) (· - 1) (fun k : Nat => n - 1 - (k : Int))
    n.toNat fuel (by intro k; push_cast; ring) (by intro k hk; simp only [decide_eq_decide]; omega)
  simpa [Function.comp_def] using this

theorem foldl_cons (l acc : List Int) : l.foldl (fun acc e => e :: acc) acc = l.reverse ++ acc := by
  induction l generalizing acc with
  | nil => rfl
  | cons x l ih => simp [ih]

/-- Iteration over a proper range that is a list. -/
theorem forward_is {r : Rng} {l : List Int} (hp : Proper r) (h : Is r l) (fuel : Nat) :
    forward fuel r = (l.take fuel, decide (l.length < fuel)) := by
  cases r with
  | empty =>
    have := h.unique (behaves_empty (fun _ => 0)).is
    subst this
    cases fuel <;> simp [forward, iterate]
  | infinite f b => have := h.1; simp [size] at this
  | finite f b n =>
    have := h.unique (behaves_finite f b n (by have := hp.2; omega)).is
    subst this
    rw [forward_finite f b n hp.1 hp.2]
    simp
  | constant f s =>
    cases s with
    | none => have := h.1; simp [size] at this
    | some n =>
      have hn := hp n rfl
      have := h.unique (behaves_constant f (some n) hp).is
      subst this
      rw [forward_constant f n hn]
      simp

theorem backward_is {r : Rng} {l : List Int} (hp : Proper r) (h : Is r l) (fuel : Nat) :
    backward fuel r = .ok (l.reverse.take fuel, decide (l.length < fuel)) := by
  cases r with
  | empty =>
    have := h.unique (behaves_empty (fun _ => 0)).is
    subst this
    cases fuel <;> simp [backward, iterate]
  | infinite f b => have := h.1; simp [size] at this
  | finite f b n =>
    have := h.unique (behaves_finite f b n (by have := hp.2; omega)).is
    subst this
    rw [backward_finite f b n hp.1 hp.2]
    simp
  | constant f s =>
    cases s with
    | none => have := h.1; simp [size] at this
    | some n =>
      have hn := hp n rfl
      have := h.unique (behaves_constant f (some n) hp).is
      subst this
      rw [backward_constant f n hn, terms_reverse]
      simp

theorem shallowCopy_is {r : Rng} {l : List Int} (hp : Proper r) (h : Is r l) (fuel : Nat)
    (hf : l.length < fuel) : shallowCopy fuel r = .ok (some l) := by
  unfold shallowCopy
  rw [backward_is hp h]
  simp only [hf, decide_true, foldl_cons]
  rw [List.take_of_length_le (by simp; omega)]
  simp

end Verif.Range
