import Verif.Threads.Join.Spec
import Mathlib.Data.List.Nodup
namespace Verif.Threads.Join
open Spec
variable {T : Type} [DecidableEq T]

theorem markAll_apply (xs : List T) : ∀ (f : T → Flags) (y : T),
    markAll f xs y = if y ∈ xs then { f y with marked := true } else f y := by
  induction xs with
  | nil => intro f y; simp [markAll]
  | cons x xs ih =>
    intro f y
    have : markAll f (x :: xs) = markAll (Function.update f x { f x with marked := true }) xs := rfl
    rw [this, ih]
    simp only [Function.update_apply, List.mem_cons]
    by_cases h1 : y = x <;> by_cases h2 : y ∈ xs <;> simp [h1, h2] <;> grind

theorem toggleAll_cons (f : T → Flags) (x : T) (xs : List T) : toggleAll f (x :: xs) =
    toggleAll (Function.update f x { f x with marked := !(f x).marked }) xs := rfl

theorem toggleAll_completed (xs : List T) : ∀ (f : T → Flags) (y : T),
    (toggleAll f xs y).completed = (f y).completed ∧ (toggleAll f xs y).joined = (f y).joined := by
  induction xs with
  | nil => intro f y; simp [toggleAll]
  | cons x xs ih =>
    intro f y
    rw [toggleAll_cons]
    have := ih (Function.update f x { f x with marked := !(f x).marked }) y
    simp only [Function.update_apply] at this
    rw [this.1, this.2]
    split <;> simp_all

theorem toggleAll_notMem (xs : List T) : ∀ (f : T → Flags) (y : T), y ∉ xs →
    toggleAll f xs y = f y := by
  induction xs with
  | nil => intro f y _; simp [toggleAll]
  | cons x xs ih =>
    intro f y hy
    simp only [List.mem_cons, not_or] at hy
    rw [toggleAll_cons, ih _ _ hy.2, Function.update_of_ne hy.1]

theorem toggleAll_mem (xs : List T) : ∀ (f : T → Flags) (y : T), xs.Nodup → y ∈ xs →
    (toggleAll f xs y).marked = !(f y).marked := by
  induction xs with
  | nil => intro f y _ h; simp at h
  | cons x xs ih =>
    intro f y hn hy
    rw [List.nodup_cons] at hn
    rw [toggleAll_cons]
    by_cases h1 : y = x
    · subst h1
      rw [toggleAll_notMem _ _ _ hn.1, Function.update_self]
    · have h2 : y ∈ xs := by simpa [h1] using hy
      rw [ih _ _ hn.2 h2, Function.update_of_ne h1]

theorem firstCompleted_some {f : T → Flags} {xs : List T} {x : T}
    (h : firstCompleted f xs = some x) : x ∈ xs ∧ (f x).completed = true :=
  ⟨List.mem_of_find?_eq_some h, by simpa using List.find?_some h⟩

theorem busy_any {f : T → Flags} {xs : List T} (h : xs.any (fun x => busy (f x)) = false) :
    ∀ x ∈ xs, (f x).marked = false ∧ (f x).joined = false := by
  intro x hx
  have := List.any_eq_false.mp h x hx
  simpa [busy] using this

/-- The threads that the join in which a thread is blocked has marked. -/
def waitingFor : PC T → List T
  | .waitOne x => [x]
  | .waitMany xs => xs
  | _ => []

/-- The arguments of the call a thread is inside. -/
def callArgs : PC T → Option (List T)
  | .callOne x | .waitOne x => some [x]
  | .callMany xs | .waitMany xs => some xs
  | _ => none

structure Inv (h : List (Event T)) (s : State T) : Prop where
  waiting : ∀ t x, x ∈ waitingFor (s.pc t) → (s.flags x).marked = true ∧ (s.flags x).joined = false
  disjoint : ∀ t u x, x ∈ waitingFor (s.pc t) → x ∈ waitingFor (s.pc u) → t = u
  joins : ∀ x, joins x h = if (s.flags x).joined then 1 else 0
  completed : ∀ x, (s.flags x).completed = true ↔ Event.exited x ∈ h
  joinedDone : ∀ x, (s.flags x).joined = true → (s.flags x).completed = true
  current : ∀ t, current t h = callArgs (s.pc t)
  many : ∀ t xs, s.pc t = .callMany xs ∨ s.pc t = .waitMany xs → 2 ≤ xs.length

theorem inv_init {s : State T} (h : init T s) : Inv [] s := by
  obtain ⟨h1, h2, h3⟩ := h
  constructor <;> simp [h2, h3, waitingFor, Spec.joins, Spec.current, callArgs]

theorem inv_tau {h : List (Event T)} {s s' : State T} (hi : Inv h s) (st : Step s none s') :
    Inv h s' := by
  obtain ⟨i1, i2, i3, i4, i5, i6, i7⟩ := hi
  cases st with
  | @oneBlock t x h1 h2 h3 h4 =>
    have hb : (s.flags x).marked = false ∧ (s.flags x).joined = false := by simpa [busy] using h3
    constructor <;> simp only [Function.update_apply] <;> grind [waitingFor, callArgs]
  | @manyBlock t xs h1 h2 h3 h4 =>
    have hb := busy_any h3
    constructor <;> simp only [Function.update_apply, markAll_apply] <;> grind [waitingFor, callArgs]

theorem inv_emit {h : List (Event T)} {s s' : State T} {e : Event T} (hi : Inv h s)
    (st : Step s (some e) s') : Inv (e :: h) s' := by
  obtain ⟨i1, i2, i3, i4, i5, i6, i7⟩ := hi
  cases st with
  | @exit t h1 h2 =>
    have := i6 t
    constructor <;> simp only [Function.update_apply, Spec.joins, Spec.current, List.mem_cons] <;>
      grind [waitingFor, callArgs]
  | @callOne t x h1 =>
    constructor <;> simp only [Function.update_apply, Spec.joins, Spec.current, List.mem_cons] <;>
      grind [waitingFor, callArgs]
  | @callMany t xs h1 h2 =>
    constructor <;> simp only [Function.update_apply, Spec.joins, Spec.current, List.mem_cons] <;>
      grind [waitingFor, callArgs]
  | @oneDuplicate t x h1 h2 h3 =>
    constructor <;> simp only [Function.update_apply, Spec.joins, Spec.current, List.mem_cons] <;>
      grind [waitingFor, callArgs]
  | @oneNow t x h1 h2 h3 h4 =>
    have hb : (s.flags x).marked = false ∧ (s.flags x).joined = false := by simpa [busy] using h3
    have hx := i3 x
    constructor <;> simp only [finishOne, Function.update_apply, Spec.joins, Spec.current,
      List.mem_cons] <;> grind [waitingFor, callArgs]
  | @oneDone t x h1 h2 h3 =>
    have hb := i1 t x (by simp [h1, waitingFor])
    have hx := i3 x
    constructor <;> simp only [finishOne, Function.update_apply, Spec.joins, Spec.current,
      List.mem_cons] <;> grind [waitingFor, callArgs]
  | @manyDuplicate t xs h1 h2 h3 =>
    constructor <;> simp only [Function.update_apply, Spec.joins, Spec.current, List.mem_cons] <;>
      grind [waitingFor, callArgs]
  | @manyNow t xs x h1 h2 h3 h4 =>
    have hb := busy_any h3
    obtain ⟨hx1, hx2⟩ := firstCompleted_some h4
    have hx := i3 x
    have tc := toggleAll_completed xs
      (Function.update (markAll s.flags xs) x { markAll s.flags xs x with joined := true })
    have tn := toggleAll_notMem xs
      (Function.update (markAll s.flags xs) x { markAll s.flags xs x with joined := true })
    simp only [Function.update_apply, markAll_apply] at tc tn hx2
    constructor <;> simp only [finishMany, Spec.joins, Spec.current, List.mem_cons] <;>
      (try simp only [markAll_apply] at *) <;> grind [waitingFor, callArgs]
  | @manyDone t xs x h1 h2 h3 =>
    have hb : ∀ y ∈ xs, _ := fun y hy => i1 t y (by simpa [h1, waitingFor] using hy)
    obtain ⟨hx1, hx2⟩ := firstCompleted_some h3
    have hx := i3 x
    have tc := toggleAll_completed xs (Function.update s.flags x { s.flags x with joined := true })
    have tn := toggleAll_notMem xs (Function.update s.flags x { s.flags x with joined := true })
    simp only [Function.update_apply] at tc tn
    constructor <;> simp only [finishMany, Spec.joins, Spec.current, List.mem_cons] <;>
      grind [waitingFor, callArgs]

theorem exec_inv {h : List (Event T)} {s : State T} (hr : Exec h s) : Inv h s := by
  induction hr with
  | start hi => exact inv_init hi
  | tau _ st ih => exact inv_tau ih st
  | emit _ st ih => exact inv_emit ih st

end Verif.Threads.Join
