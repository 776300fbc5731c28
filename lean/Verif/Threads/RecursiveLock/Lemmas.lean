import Verif.Threads.RecursiveLock.Spec
import Mathlib.Data.Finset.Card
import Mathlib.Data.Finset.Insert
namespace Verif.Threads.RecursiveLock
open Spec
variable {T : Type} [DecidableEq T]

/-- Claims of a thread inside the primitives that the mutex counts and the abstract lock does not. -/
def extra : PC → Nat
  | .incr | .store | .unlock => 1
  | .idle | .decr => 0

/-- The state of the implementation against the abstract lock. -/
structure Inv (l : Lock T) (s : State T) : Prop where
  free : s.mutex = none → s.depth = 0
  pos : ∀ t, l.holder = some t → 1 ≤ l.claims
  zero : l.holder = none → l.claims = 0
  dpos : s.mutex ≠ none → 1 ≤ s.depth
  holder : ∀ t, l.holder = some t → s.mutex = some t ∧ s.owner = some t
  depth : ∀ t, s.mutex = some t → s.depth = l.claims + extra (s.pc t)
  other : ∀ t, s.mutex ≠ some t → s.pc t ≠ .incr ∧ s.pc t ≠ .store ∧
    (s.pc t = .unlock → l.phase t = .releasing false)
  own : ∀ t, s.mutex = some t → s.pc t = .unlock → l.phase t = .releasing true
  decr : ∀ t, s.pc t = .decr → l.phase t = .releasing true
  idle : ∀ t, s.pc t = .idle ∨ s.pc t = .incr ∨ s.pc t = .store → l.phase t = .free

/-- The number of threads about to decrement, and the counter. -/
def CountInv (s : State T) : Prop :=
  ∃ F : Finset T, (∀ t, t ∈ F ↔ s.pc t = .decr) ∧
    (∀ t, s.mutex = some t → s.pc t = .incr → s.count + 1 = s.depth + F.card) ∧
    ((∀ t, s.mutex = some t → s.pc t ≠ .incr) → s.count = s.depth + F.card)

theorem inv_init {s : State T} (h : init T s) : Inv (Lock.new T) s := by
  obtain ⟨h1, h2, h3, h4, h5⟩ := h
  constructor <;> simp [Lock.new, h1, h3, h4, h5]

theorem inv_tau {l : Lock T} {s s' : State T} (hi : Inv l s) (h : Step s none s') : Inv l s' := by
  obtain ⟨i1, i2, i3, i4, i5, i6, i7, i8, i9, i10⟩ := hi
  cases h with
  | @lock t h1 h2 =>
    have hz : s.mutex = none → l.claims = 0 := by
      intro hm; cases hl : l.holder <;> grind
    constructor <;> (try intro u) <;> (try simp only [Function.update_apply]) <;> grind [extra]
  | @incr t h1 =>
    constructor <;> (try intro u) <;> (try simp only [Function.update_apply]) <;> grind [extra]
  | @unlock t h1 h2 =>
    have := i6 t h2
    constructor <;> (try intro u) <;> (try simp only [Function.update_apply]) <;> grind [extra]

theorem inv_emit {l : Lock T} {s s' : State T} {e : Event T} (hi : Inv l s)
    (h : Step s (some e) s') : ∃ l', l.next e = some l' ∧ Inv l' s' := by
  obtain ⟨i1, i2, i3, i4, i5, i6, i7, i8, i9, i10⟩ := hi
  cases h with
  | @timeout t h1 =>
    exact ⟨l, by simp only [Lock.next]; grind, by constructor <;> assumption⟩
  | @owned t b h1 h2 =>
    exact ⟨l, by simp only [Lock.next]; grind, by constructor <;> assumption⟩
  | @store t h1 =>
    have hm : s.mutex = some t := by grind
    have hh : l.holder = none ∨ l.holder = some t := by
      cases hl : l.holder with
      | none => exact .inl rfl
      | some u => right; have := i5 u hl; grind
    refine ⟨_, by simp only [Lock.next]; rw [if_pos ⟨i10 t (by grind), hh⟩], ?_⟩
    constructor <;> (try intro u) <;> (try simp only [Function.update_apply]) <;> grind [extra]
  | @releasing t h1 =>
    by_cases hh : l.holder = some t
    · refine ⟨_, by simp only [Lock.next]; rw [if_pos (i10 t (by grind)), if_pos hh], ?_⟩
      have := i6 t (i5 t hh).1
      constructor <;> (try intro u) <;> (try simp only [Function.update_apply]) <;> grind [extra]
    · refine ⟨_, by simp only [Lock.next]; rw [if_pos (i10 t (by grind)), if_neg hh], ?_⟩
      have hm : s.mutex ≠ some t := by
        intro hm
        have h6 := i6 t hm
        have h4 := i4 (by grind)
        cases hl : l.holder with
        | none => have := i3 hl; grind [extra]
        | some u => have := i5 u hl; grind
      constructor <;> (try intro u) <;> (try simp only [Function.update_apply]) <;> grind [extra]
  | @eperm t h1 h2 =>
    refine ⟨_, by simp only [Lock.next]; rw [if_pos ((i7 t h2).2.2 h1)], ?_⟩
    constructor <;> (try intro u) <;> (try simp only [Function.update_apply]) <;> grind [extra]
  | @decr t h1 =>
    refine ⟨_, by simp only [Lock.next]; rw [if_pos (i9 t h1)], ?_⟩
    constructor <;> (try intro u) <;> (try simp only [Function.update_apply]) <;> grind [extra]

theorem count_step {l : Lock T} {s s' : State T} {e : Option (Event T)} (hi : Inv l s)
    (hc : CountInv s) (h : Step s e s') : CountInv s' := by
  obtain ⟨F, hF, c1, c2⟩ := hc
  obtain ⟨i1, i2, i3, i4, i5, i6, i7, i8, i9, i10⟩ := hi
  cases h with
  | @lock t h1 h2 =>
    refine ⟨F, ?_, ?_, ?_⟩ <;> simp only [Function.update_apply]
    · grind
    · intro u hu _; have := c2 (by grind); grind
    · intro hu; exact absurd (if_pos rfl) (hu t rfl)
  | @timeout t h1 => exact ⟨F, hF, c1, c2⟩
  | @owned t b h1 h2 => exact ⟨F, hF, c1, c2⟩
  | @incr t h1 =>
    refine ⟨F, ?_, ?_, ?_⟩ <;> simp only [Function.update_apply]
    · grind
    · intro u hu _; grind
    · intro hu; exact c1 t (by grind) h1
  | @store t h1 =>
    refine ⟨F, ?_, ?_, ?_⟩ <;> simp only [Function.update_apply] <;> grind
  | @releasing t h1 =>
    refine ⟨F, ?_, ?_, ?_⟩ <;> simp only [Function.update_apply]
    · grind
    · intro u hu _; grind
    · intro hu; apply c2; grind
  | @eperm t h1 h2 =>
    refine ⟨F, ?_, ?_, ?_⟩ <;> simp only [Function.update_apply]
    · grind
    · intro u hu _; grind
    · intro hu; apply c2; grind
  | @unlock t h1 h2 =>
    have ht : t ∉ F := by rw [hF]; simp [h1]
    have hd := i4 (by grind)
    have hc := c2 (by grind)
    refine ⟨insert t F, ?_, ?_, ?_⟩ <;>
      simp only [Function.update_apply, Finset.mem_insert, Finset.card_insert_of_notMem ht]
    · grind
    · intro u hu _; grind
    · intro hu; grind
  | @decr t h1 =>
    have ht : t ∈ F := (hF t).mpr h1
    have hcard := Finset.card_erase_add_one ht
    refine ⟨F.erase t, ?_, ?_, ?_⟩ <;> simp only [Function.update_apply, Finset.mem_erase]
    · grind
    · intro u hu hp
      have := c1 u hu (by grind)
      grind
    · intro hu
      have := c2 (by intro u hm hp; exact hu u hm (by grind))
      grind

theorem exec_inv {h : List (Event T)} {s : State T} (hr : Exec h s) :
    ∃ l, after h = some l ∧ Inv l s ∧ CountInv s := by
  induction hr with
  | start hi =>
    refine ⟨_, rfl, inv_init hi, ∅, ?_⟩
    obtain ⟨h1, h2, h3, h4, h5⟩ := hi
    simp [h2, h3, h4, h5]
  | tau _ st ih =>
    obtain ⟨l, hl, hi, hc⟩ := ih; exact ⟨l, hl, inv_tau hi st, count_step hi hc st⟩
  | emit _ st ih =>
    obtain ⟨l, hl, hi, hc⟩ := ih
    obtain ⟨l', h', hi'⟩ := inv_emit hi st
    exact ⟨l', by simp only [after, hl, Option.bind_some]; exact h', hi', count_step hi hc st⟩

end Verif.Threads.RecursiveLock
