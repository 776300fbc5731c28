import Verif.Threads.Tlv.Spec
import Mathlib.Data.Finset.Card
import Mathlib.Data.Finset.Insert
import Mathlib.Data.Fintype.Card
namespace Verif.Threads.Tlv
open Spec
variable {T V : Type} [DecidableEq T]

/-- A writer between its successful increment and its decrement. -/
@[simp, grind =] def active : PC T V → Prop
  | .wLoad _ _ | .wStore _ _ _ | .wDone _ _ => True
  | _ => False

/-- A writer whose increment is counted. -/
@[simp, grind =] def counted : PC T V → Prop
  | .wLoad _ _ | .wStore _ _ _ | .wDone _ _ | .wDec _ _ => True
  | _ => False

/-- A thread between the two spins of `grow_all_tlv_vectors`. -/
@[simp, grind =] def growing : PC T V → Prop
  | .gDefault _ _ | .gNext _ _ _ | .gPublish _ _ _ _ _ => True
  | _ => False

/-- A thread that holds the list lock. -/
@[simp, grind =] def holding : PC T V → Prop
  | .wUnlock _ _ | .aOffset _ | .gEnter _ _ | .gDefault _ _ | .gNext _ _ _ | .gPublish _ _ _ _ _
  | .aDefault _ _ | .aUpdate _ _ _ | .aUnlock _ _ => True
  | _ => False

/-- The synchronisation part of the invariant. -/
structure Sync (s : State T V) : Prop where
  lock : ∀ t, holding (s.pc t) → s.lock = some t
  excl : ∀ g t, growing (s.pc g) → ¬ active (s.pc t)
  dec : ∀ t off v, s.pc t = .wDec off v → ∃ g, growing (s.pc g)
  counter : ∃ W : Finset T, (∀ t, t ∈ W ↔ counted (s.pc t)) ∧
    ((∃ g, growing (s.pc g)) → s.counter = grow + W.card) ∧
    ((∀ g, ¬ growing (s.pc g)) → s.counter = W.card)

theorem sync_init {s : State T V} (h : init T V s) : Sync s := by
  obtain ⟨h1, h2, h3, h4, h5, h6, h7, h8, h9⟩ := h
  refine ⟨?_, ?_, ?_, ∅, ?_⟩ <;> simp [h1, h9]

theorem growing_holding {p : PC T V} (h : growing p) : holding p := by
  cases p <;> simp_all

/-- Steps that change nothing but the program point of `t`, which stays in the same classes. -/
theorem sync_frame {s s' : State T V} (hi : Sync s) (hl : s'.lock = s.lock)
    (hc : s'.counter = s.counter)
    (h : ∀ u, (counted (s'.pc u) ↔ counted (s.pc u)) ∧ (growing (s'.pc u) ↔ growing (s.pc u)) ∧
      (holding (s'.pc u) ↔ holding (s.pc u)) ∧ (active (s'.pc u) ↔ active (s.pc u)) ∧
      ∀ off v, s'.pc u = .wDec off v ↔ s.pc u = .wDec off v) : Sync s' := by
  obtain ⟨i1, i2, i3, W, w, c1, c2⟩ := hi
  refine ⟨?_, ?_, ?_, W, ?_, ?_, ?_⟩
  · intro t ht; rw [hl]; exact i1 t ((h t).2.2.1.mp ht)
  · intro g t hg; rw [(h t).2.2.2.1]; exact i2 g t ((h g).2.1.mp hg)
  · intro t off v ht
    obtain ⟨g, hg⟩ := i3 t off v (((h t).2.2.2.2 off v).mp ht)
    exact ⟨g, (h g).2.1.mpr hg⟩
  · intro t; rw [w, (h t).1]
  · rintro ⟨g, hg⟩; rw [hc]; exact c1 ⟨g, (h g).2.1.mp hg⟩
  · intro hg; rw [hc]; exact c2 (fun g hg' => hg g ((h g).2.1.mpr hg'))

theorem sync_step [Fintype T] (hT : Fintype.card T < 2000000) {s s' : State T V} {u : Bool}
    {e : Option (Event T V)} (hi : Sync s) (st : Step u s e s') : Sync s' := by
  have hframe := fun (s' : State T V) => sync_frame (s' := s') hi
  obtain ⟨i1, i2, i3, W, w, c1, c2⟩ := hi
  have hW : W.card ≤ Fintype.card T := Finset.card_le_univ W
  cases st with
  | @wIncNeg t off v h1 h2 =>
    have ht : t ∉ W := by rw [w]; simp [h1]
    have hg : ∃ g, growing (s.pc g) := by
      by_contra hn
      have := c2 (fun g hg => hn ⟨g, hg⟩)
      omega
    have hc := c1 hg
    obtain ⟨g, hg⟩ := hg
    have hgt : g ≠ t := by rintro rfl; simp [h1] at hg
    have hg' : growing (Function.update s.pc t (.wDec off v) g) := by
      rw [Function.update_of_ne hgt]; exact hg
    refine ⟨?_, ?_, ?_, insert t W, ?_, ?_, ?_⟩
    · intro x; simp only [Function.update_apply]; grind
    · intro g x; simp only [Function.update_apply]; grind
    · intro x off v hx; exact ⟨g, hg'⟩
    · intro x; simp only [Function.update_apply, Finset.mem_insert]; grind
    · intro _; rw [Finset.card_insert_of_notMem ht]; push_cast; omega
    · intro hn; exact absurd hg' (hn g)
  | @wIncPos t off v h1 h2 =>
    have ht : t ∉ W := by rw [w]; simp [h1]
    have hW' : W.card + 1 ≤ Fintype.card T := by
      rw [← Finset.card_insert_of_notMem ht]; exact Finset.card_le_univ _
    have hg : ∀ g, ¬ growing (s.pc g) := by
      intro g hg
      have := c1 ⟨g, hg⟩
      simp only [grow] at this
      omega
    have hc := c2 hg
    have hg' : ∀ g, ¬ growing (Function.update s.pc t (.wLoad off v) g) := by
      intro g; simp only [Function.update_apply]; have := hg g; grind
    refine ⟨?_, ?_, ?_, insert t W, ?_, ?_, ?_⟩
    · intro x; simp only [Function.update_apply]; grind
    · intro g x hgx; exact absurd hgx (hg' g)
    · intro x off v hx
      simp only [Function.update_apply] at hx
      obtain ⟨g, hg2⟩ := i3 x off v (by grind)
      exact absurd hg2 (hg g)
    · intro x; simp only [Function.update_apply, Finset.mem_insert]; grind
    · rintro ⟨g, hgx⟩; exact absurd hgx (hg' g)
    · intro hn; rw [Finset.card_insert_of_notMem ht]; push_cast; omega
  | @wDecNeg t off v h1 h2 =>
    have ht : t ∈ W := by rw [w]; simp [h1]
    have hcard := Finset.card_erase_add_one ht
    obtain ⟨g, hg⟩ := i3 t off v h1
    have hc := c1 ⟨g, hg⟩
    have hgt : g ≠ t := by rintro rfl; simp [h1] at hg
    have hg' : growing (Function.update s.pc t (.wLock off v) g) := by
      rw [Function.update_of_ne hgt]; exact hg
    refine ⟨?_, ?_, ?_, W.erase t, ?_, ?_, ?_⟩
    · intro x; simp only [Function.update_apply]; grind
    · intro g x; simp only [Function.update_apply]; grind
    · intro x off v hx; exact ⟨g, hg'⟩
    · intro x; simp only [Function.update_apply, Finset.mem_erase]; grind
    · intro _; dsimp only; omega
    · intro hn; exact absurd hg' (hn g)
  | @wDecPos t off v h1 h2 =>
    exfalso
    obtain ⟨g, hg⟩ := i3 t off v h1
    have hc := c1 ⟨g, hg⟩
    simp only [grow] at hc
    omega
  | @wDone t off v h1 =>
    have ht : t ∈ W := by rw [w]; simp [h1]
    have hcard := Finset.card_erase_add_one ht
    have hg : ∀ g, ¬ growing (s.pc g) := fun g hg => i2 g t hg (by simp [h1])
    have hc := c2 hg
    have hg' : ∀ g, ¬ growing (Function.update s.pc t .idle g) := by
      intro g; simp only [Function.update_apply]; have := hg g; grind
    refine ⟨?_, ?_, ?_, W.erase t, ?_, ?_, ?_⟩
    · intro x; simp only [Function.update_apply]; grind
    · intro g x hgx; exact absurd hgx (hg' g)
    · intro x off v hx
      simp only [Function.update_apply] at hx
      obtain ⟨g, hg2⟩ := i3 x off v (by grind)
      exact absurd hg2 (hg g)
    · intro x; simp only [Function.update_apply, Finset.mem_erase]; grind
    · rintro ⟨g, hgx⟩; exact absurd hgx (hg' g)
    · intro hn; dsimp only; omega
  | @gEnter t off v h1 h2 =>
    have hl := i1 t (by simp [h1])
    have hg : ∀ g, ¬ growing (s.pc g) := by
      intro g hg
      have := i1 g (growing_holding hg)
      rw [hl] at this; cases this
      simp [h1] at hg
    have hc := c2 hg
    have hW0 : W = ∅ := by rw [← Finset.card_eq_zero]; omega
    subst hW0
    have hna : ∀ x, ¬ counted (s.pc x) := fun x hx => by simpa using (w x).mpr hx
    refine ⟨?_, ?_, ?_, ∅, ?_, ?_, ?_⟩
    · intro x; simp only [Function.update_apply]; grind
    · intro g x _ ha
      have := hna x
      simp only [Function.update_apply] at ha
      split at ha
      · simp at ha
      · revert ha this; cases s.pc x <;> simp
    · intro x off v hx; exact ⟨t, by simp⟩
    · intro x; simp only [Function.update_apply]; have := hna x; grind
    · intro _; simp
    · intro hn; exact absurd (by simp) (hn t)
  | @gLeave t off v h1 h2 =>
    have hl := i1 t (by simp [h1])
    have hc := c1 ⟨t, by simp [h1]⟩
    have hW0 : W = ∅ := by rw [← Finset.card_eq_zero]; omega
    subst hW0
    have hna : ∀ x, ¬ counted (s.pc x) := fun x hx => by simpa using (w x).mpr hx
    have hg : ∀ g, g ≠ t → ¬ growing (s.pc g) := by
      intro g hgt hg
      have := i1 g (growing_holding hg)
      rw [hl] at this; cases this
      exact hgt rfl
    have hg' : ∀ g, ¬ growing (Function.update s.pc t (.aDefault off v) g) := by
      intro g; simp only [Function.update_apply]; have := hg g; grind
    refine ⟨?_, ?_, ?_, ∅, ?_, ?_, ?_⟩
    · intro x; simp only [Function.update_apply]; grind
    · intro g x hgx; exact absurd hgx (hg' g)
    · intro x off v hx
      exfalso
      simp only [Function.update_apply] at hx
      apply hna x
      grind
    · intro x; simp only [Function.update_apply]; have := hna x; grind
    · rintro ⟨g, hgx⟩; exact absurd hgx (hg' g)
    · intro hn; simp
  | @wLock t off v h1 h2 =>
    refine ⟨?_, ?_, ?_, W, ?_, ?_, ?_⟩ <;> simp only [Function.update_apply] <;> grind
  | @wUnlock t off v h1 =>
    have hl := i1 t (by simp [h1])
    refine ⟨?_, ?_, ?_, W, ?_, ?_, ?_⟩ <;> simp only [Function.update_apply] <;> grind
  | @aLock t v h1 h2 =>
    refine ⟨?_, ?_, ?_, W, ?_, ?_, ?_⟩ <;> simp only [Function.update_apply] <;> grind
  | @aUnlock t off v h1 =>
    have hl := i1 t (by simp [h1])
    refine ⟨?_, ?_, ?_, W, ?_, ?_, ?_⟩ <;> simp only [Function.update_apply] <;> grind
  | _ =>
    refine hframe _ rfl rfl ?_
    intro x
    simp only [Function.update_apply]
    grind

end Verif.Threads.Tlv
