import Verif.Threads.SimpleLock.Model
/-
What a simple lock is for its users: an abstract lock with at most one holder.  The specification only
mentions API events (`Event`), not the implementation state.
-/
namespace Verif.Threads.SimpleLock.Spec
open Function (update)

/-- Which call a thread is inside, and whether it held the lock when it made the call. -/
inductive Phase | free | releasing (held : Bool) | waiting (held : Bool)
  deriving DecidableEq

/-- The abstract lock: its holder, if any. -/
structure Lock (T : Type) where
  holder : Option T
  phase : T → Phase

/-- A new lock is free. -/
def Lock.new (T : Type) : Lock T := ⟨none, fun _ => .free⟩

variable {T : Type} [DecidableEq T]

/-- The events the abstract lock allows, and their effect.  A claim succeeds only when nobody holds the
lock; releasing succeeds exactly for a caller that held it, and has no effect otherwise; a waiter gives
the lock up and has it again when it returns.  The answer of `owned?` is not constrained here. -/
def Lock.next (l : Lock T) : Event T → Option (Lock T)
  | .claimed t => if l.phase t = .free ∧ l.holder = none then some { l with holder := some t } else none
  | .claimFailed t => if l.phase t = .free ∧ l.holder = some t then some l else none
  | .claimTimedOut t => if l.phase t = .free then some l else none
  | .releasing t =>
    if l.phase t = .free then
      if l.holder = some t then some ⟨none, update l.phase t (.releasing true)⟩
      else some ⟨l.holder, update l.phase t (.releasing false)⟩
    else none
  | .released t =>
    if l.phase t = .releasing true then some { l with phase := update l.phase t .free } else none
  | .releaseFailed t =>
    if l.phase t = .releasing false then some { l with phase := update l.phase t .free } else none
  | .owned t _ => if l.phase t = .free then some l else none
  | .waiting t =>
    if l.phase t = .free then
      if l.holder = some t then some ⟨none, update l.phase t (.waiting true)⟩
      else some ⟨l.holder, update l.phase t (.waiting false)⟩
    else none
  | .woke t _ =>
    if l.phase t = .waiting true ∧ l.holder = none then
      some ⟨some t, update l.phase t .free⟩ else none
  | .waitFailed t =>
    if l.phase t = .waiting false then some { l with phase := update l.phase t .free } else none

/-- The abstract lock after a history (most recent event first); `none` if the history contains an event
the abstract lock does not allow. -/
def after : List (Event T) → Option (Lock T)
  | [] => some (Lock.new T)
  | e :: h => (after h).bind (fun l => l.next e)

/-- `t` holds the lock after the history `h`. -/
def Holds (h : List (Event T)) (t : T) : Prop := ∃ l, after h = some l ∧ l.holder = some t

/-- Every answer of `owned?` in the history was the truth at that moment. -/
def OwnedExact : List (Event T) → Prop
  | [] => True
  | .owned t b :: h => (b = true ↔ Holds h t) ∧ OwnedExact h
  | _ :: h => OwnedExact h

/-- In the history only holders call `release`, and nobody waits on a notification. -/
def Disciplined : List (Event T) → Prop
  | [] => True
  | .releasing t :: h => Holds h t ∧ Disciplined h
  | .waiting _ :: _ => False
  | _ :: h => Disciplined h

end Verif.Threads.SimpleLock.Spec
