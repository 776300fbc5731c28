import Verif.Threads.SimpleLock.Spec
namespace Verif.Threads.SimpleLock
open Spec
variable {T : Type} [DecidableEq T]

/-- The state of the implementation against the abstract lock. -/
structure Inv (l : Lock T) (s : State T) : Prop where
  holder : ∀ t, l.holder = some t → s.mutex = some t ∧ s.pc t = .idle
  idle : ∀ t, s.pc t = .idle → l.phase t = .free ∧ (s.mutex = some t → l.holder = some t)
  store : ∀ t, s.pc t = .store → s.mutex = some t ∧ l.phase t = .free
  rel : ∀ t, s.pc t = .clear ∨ s.pc t = .unlock →
    (s.mutex = some t → l.phase t = .releasing true) ∧
      (s.mutex ≠ some t → l.phase t = .releasing false)
  cond : ∀ t, s.pc t = .condCall → (s.mutex = some t → l.phase t = .waiting true) ∧
      (s.mutex ≠ some t → l.phase t = .waiting false)
  sleep : ∀ t, s.pc t = .sleep → l.phase t = .waiting true ∧ s.mutex ≠ some t
  owner : ∀ t, s.owner = some t →
    (s.pc t = .idle → l.holder = some t) ∧ s.pc t ≠ .unlock ∧ (s.pc t = .condCall → s.mutex = some t)

theorem inv_init {s : State T} (h : init T s) : Inv (Lock.new T) s := by
  obtain ⟨h1, h2, h3⟩ := h
  constructor <;> intro t <;> simp [Lock.new, h1, h2, h3]

theorem inv_tau {l : Lock T} {s s' : State T} (hi : Inv l s) (h : Step s none s') : Inv l s' := by
  obtain ⟨i1, i2, i3, i4, i5, i6, i7⟩ := hi
  cases h <;> constructor <;> intro u <;> simp only [Function.update_apply] <;> grind

theorem inv_emit {l : Lock T} {s s' : State T} {e : Event T} (hi : Inv l s)
    (h : Step s (some e) s') : ∃ l', l.next e = some l' ∧ Inv l' s' := by
  obtain ⟨i1, i2, i3, i4, i5, i6, i7⟩ := hi
  cases h with
  | @deadlk t h1 h2 =>
    refine ⟨l, ?_, ?_⟩
    · simp only [Lock.next]; grind
    · constructor <;> assumption
  | @timeout t h1 =>
    refine ⟨l, ?_, ?_⟩
    · simp only [Lock.next]; grind
    · constructor <;> assumption
  | @store t h1 =>
    refine ⟨{ l with holder := some t }, ?_, ?_⟩
    · have : l.holder = none := by cases hh : l.holder <;> grind
      simp only [Lock.next]; grind
    · constructor <;> intro u <;> simp only [Function.update_apply] <;> grind
  | @releasing t h1 =>
    by_cases hh : l.holder = some t
    · refine ⟨_, by simp only [Lock.next, (i2 t h1).1, hh, if_true]; rfl, ?_⟩
      constructor <;> intro u <;> simp only [Function.update_apply] <;> grind
    · refine ⟨_, by simp only [Lock.next, (i2 t h1).1, hh, if_true, if_false]; rfl, ?_⟩
      constructor <;> intro u <;> simp only [Function.update_apply] <;> grind
  | @unlock t h1 h2 =>
    refine ⟨{ l with phase := Function.update l.phase t .free }, ?_, ?_⟩
    · simp only [Lock.next]; grind
    · constructor <;> intro u <;> simp only [Function.update_apply] <;> grind
  | @eperm t h1 h2 =>
    refine ⟨{ l with phase := Function.update l.phase t .free }, ?_, ?_⟩
    · simp only [Lock.next]; grind
    · constructor <;> intro u <;> simp only [Function.update_apply] <;> grind
  | @owned t b h1 h2 =>
    refine ⟨l, ?_, ?_⟩
    · simp only [Lock.next]; grind
    · constructor <;> assumption
  | @waiting t h1 =>
    by_cases hh : l.holder = some t
    · refine ⟨_, by simp only [Lock.next, (i2 t h1).1, hh, if_true]; rfl, ?_⟩
      constructor <;> intro u <;> simp only [Function.update_apply] <;> grind
    · refine ⟨_, by simp only [Lock.next, (i2 t h1).1, hh, if_true, if_false]; rfl, ?_⟩
      constructor <;> intro u <;> simp only [Function.update_apply] <;> grind
  | @condPerm t h1 h2 =>
    refine ⟨{ l with phase := Function.update l.phase t .free }, ?_, ?_⟩
    · simp only [Lock.next]; grind
    · constructor <;> intro u <;> simp only [Function.update_apply] <;> grind
  | @wake t b h1 h2 =>
    refine ⟨⟨some t, Function.update l.phase t .free⟩, ?_, ?_⟩
    · have : l.holder = none := by cases hh : l.holder <;> grind
      simp only [Lock.next]; grind
    · constructor <;> intro u <;> simp only [Function.update_apply] <;> grind

theorem exec_inv {h : List (Event T)} {s : State T} (hr : Exec h s) :
    ∃ l, after h = some l ∧ Inv l s := by
  induction hr with
  | start hi => exact ⟨_, rfl, inv_init hi⟩
  | tau _ st ih => obtain ⟨l, hl, hi⟩ := ih; exact ⟨l, hl, inv_tau hi st⟩
  | emit _ st ih =>
    obtain ⟨l, hl, hi⟩ := ih
    obtain ⟨l', h', hi'⟩ := inv_emit hi st
    exact ⟨l', by simp only [after, hl, Option.bind_some]; exact h', hi'⟩

end Verif.Threads.SimpleLock
