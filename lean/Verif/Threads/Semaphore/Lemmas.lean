import Verif.Threads.Semaphore.Spec
import Mathlib.Data.Finset.Card
import Mathlib.Data.Finset.Insert
namespace Verif.Threads.Semaphore
open Spec
variable {T : Type} [DecidableEq T]

namespace Emulated

/-- The points at which a thread holds the mutex. -/
def Inside (p : PC) : Prop := p = .wTest ∨ p = .wUnlock ∨ p = .tUnlock ∨ p = .rTest ∨ p = .rUnlock

instance (p : PC) : Decidable (Inside p) := by unfold Inside; infer_instance

structure Inv (max initial : Int) (h : List (Event T)) (s : State T) : Prop where
  mutex : ∀ t, Inside (s.pc t) → s.mutex = some t
  nonneg : 0 ≤ initial → 0 ≤ s.count
  le : initial ≤ max → s.count ≤ max
  counts : ∃ W R D : Finset T, (∀ t, t ∈ W ↔ s.pc t = .wUnlock) ∧
    (∀ t, t ∈ R ↔ s.pc t = .rLock ∨ s.pc t = .rTest) ∧
    (∀ t, t ∈ D ↔ s.pc t = .rUnlock ∨ s.pc t = .rSignal) ∧
    (releaseCalls h : Int) = releases h + failures h + R.card + D.card ∧
    s.count = initial + releases h + D.card - waits h - W.card

theorem inv_init {max initial : Int} {s : State T} (h : init T initial s) : Inv max initial [] s := by
  obtain ⟨h1, h2, h3⟩ := h
  refine ⟨?_, ?_, ?_, ∅, ∅, ∅, ?_⟩ <;>
    simp [h2, h3, Inside, releaseCalls, releases, failures, waits]

theorem inv_tau {max initial : Int} {h : List (Event T)} {s s' : State T} (hi : Inv max initial h s)
    (st : Step max s none s') : Inv max initial h s' := by
  obtain ⟨i1, i2, i3, W, R, D, w, r, d, c1, c2⟩ := hi
  cases st with
  | @wLock t h1 h2 =>
    refine ⟨?_, i2, i3, W, R, D, ?_, ?_, ?_, c1, c2⟩ <;> simp only [Function.update_apply] <;>
      grind [Inside]
  | @wBlock t h1 h2 =>
    refine ⟨?_, i2, i3, W, R, D, ?_, ?_, ?_, c1, c2⟩ <;> simp only [Function.update_apply] <;>
      grind [Inside]
  | @wake t h1 h2 =>
    refine ⟨?_, i2, i3, W, R, D, ?_, ?_, ?_, c1, c2⟩ <;> simp only [Function.update_apply] <;>
      grind [Inside]
  | @wakeTimeout t h1 h2 =>
    refine ⟨?_, i2, i3, W, R, D, ?_, ?_, ?_, c1, c2⟩ <;> simp only [Function.update_apply] <;>
      grind [Inside]
  | @wDecr t h1 h2 =>
    have ht : t ∉ W := by rw [w]; simp [h1]
    refine ⟨?_, ?_, ?_, insert t W, R, D, ?_, ?_, ?_, c1, ?_⟩ <;>
      simp only [Function.update_apply, Finset.mem_insert, Finset.card_insert_of_notMem ht] <;>
      grind [Inside]
  | @rLock t h1 h2 =>
    refine ⟨?_, i2, i3, W, R, D, ?_, ?_, ?_, c1, c2⟩ <;> simp only [Function.update_apply] <;>
      grind [Inside]
  | @rIncr t h1 h2 =>
    have ht : t ∈ R := by rw [r]; simp [h1]
    have ht' : t ∉ D := by rw [d]; simp [h1]
    have hcard := Finset.card_erase_add_one ht
    refine ⟨?_, ?_, ?_, W, R.erase t, insert t D, ?_, ?_, ?_, ?_, ?_⟩ <;>
      simp only [Function.update_apply, Finset.mem_insert, Finset.card_insert_of_notMem ht',
        Finset.mem_erase] <;>
      grind [Inside]
  | @rUnlock t h1 =>
    refine ⟨?_, i2, i3, W, R, D, ?_, ?_, ?_, c1, c2⟩ <;> simp only [Function.update_apply] <;>
      grind [Inside]

theorem inv_emit {max initial : Int} {h : List (Event T)} {s s' : State T} {e : Event T}
    (hi : Inv max initial h s) (st : Step max s (some e) s') : Inv max initial (e :: h) s' := by
  obtain ⟨i1, i2, i3, W, R, D, w, r, d, c1, c2⟩ := hi
  cases st with
  | @tUnlock t h1 =>
    refine ⟨?_, i2, i3, W, R, D, ?_, ?_, ?_, c1, c2⟩ <;> simp only [Function.update_apply] <;>
      grind [Inside]
  | @wUnlock t h1 =>
    have ht : t ∈ W := by rw [w]; simp [h1]
    have hcard := Finset.card_erase_add_one ht
    refine ⟨?_, i2, i3, W.erase t, R, D, ?_, ?_, ?_, c1, ?_⟩ <;>
      simp only [Function.update_apply, Finset.mem_erase, releases, waits] <;> grind [Inside]
  | @releasing t h1 =>
    have ht : t ∉ R := by rw [r]; simp [h1]
    refine ⟨?_, i2, i3, W, insert t R, D, ?_, ?_, ?_, ?_, c2⟩ <;>
      simp only [Function.update_apply, Finset.mem_insert, Finset.card_insert_of_notMem ht,
        releaseCalls, releases, failures] <;> grind [Inside]
  | @exceeded t h1 h2 =>
    have ht : t ∈ R := by rw [r]; simp [h1]
    have hcard := Finset.card_erase_add_one ht
    refine ⟨?_, i2, i3, W, R.erase t, D, ?_, ?_, ?_, ?_, c2⟩ <;>
      simp only [Function.update_apply, Finset.mem_erase, releaseCalls, releases, failures] <;>
      grind [Inside]
  | @rSignal t h1 =>
    have ht : t ∈ D := by rw [d]; simp [h1]
    have hcard := Finset.card_erase_add_one ht
    refine ⟨?_, i2, i3, W, R, D.erase t, ?_, ?_, ?_, ?_, ?_⟩ <;>
      simp only [Function.update_apply, Finset.mem_erase, releaseCalls, releases, failures, waits] <;>
      grind [Inside]

theorem exec_inv {max initial : Int} {h : List (Event T)} {s : State T} (hr : Exec max initial h s) :
    Inv max initial h s := by
  induction hr with
  | start hi => exact inv_init hi
  | tau _ st ih => exact inv_tau ih st
  | emit _ st ih => exact inv_emit ih st

end Emulated
end Verif.Threads.Semaphore
