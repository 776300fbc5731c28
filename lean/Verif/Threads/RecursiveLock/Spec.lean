import Verif.Threads.RecursiveLock.Model
/-
What a recursive lock is for its users, in terms of API events only.
-/
namespace Verif.Threads.RecursiveLock.Spec
open Function (update)

/-- Which call a thread is inside, and whether it held the lock when it made the call. -/
inductive Phase | free | releasing (held : Bool)
  deriving DecidableEq

/-- The abstract lock: its holder and how many claims are outstanding. -/
structure Lock (T : Type) where
  holder : Option T
  claims : Nat
  phase : T → Phase

/-- A new lock is free. -/
def Lock.new (T : Type) : Lock T := ⟨none, 0, fun _ => .free⟩

variable {T : Type} [DecidableEq T]

/-- The events the abstract lock allows, and their effect.  A claim succeeds only when nobody holds the
lock or the caller does; the lock is given up by the last of as many releases as there were claims. -/
def Lock.next (l : Lock T) : Event T → Option (Lock T)
  | .claimed t =>
    if l.phase t = .free ∧ (l.holder = none ∨ l.holder = some t) then
      some { l with holder := some t, claims := l.claims + 1 } else none
  | .claimTimedOut t => if l.phase t = .free then some l else none
  | .releasing t =>
    if l.phase t = .free then
      if l.holder = some t then
        some ⟨if l.claims = 1 then none else some t, l.claims - 1, update l.phase t (.releasing true)⟩
      else some { l with phase := update l.phase t (.releasing false) }
    else none
  | .released t =>
    if l.phase t = .releasing true then some { l with phase := update l.phase t .free } else none
  | .releaseFailed t =>
    if l.phase t = .releasing false then some { l with phase := update l.phase t .free } else none
  | .owned t _ => if l.phase t = .free then some l else none

/-- The abstract lock after a history (most recent event first); `none` if the history contains an event
the abstract lock does not allow. -/
def after : List (Event T) → Option (Lock T)
  | [] => some (Lock.new T)
  | e :: h => (after h).bind (fun l => l.next e)

/-- `t` holds the lock after the history `h`. -/
def Holds (h : List (Event T)) (t : T) : Prop := ∃ l, after h = some l ∧ l.holder = some t

/-- The number of claims minus the number of releases of `t` that succeeded or are under way: what `t`
has outstanding, counted directly from the events of `t`. -/
def outstanding (t : T) : List (Event T) → Int
  | [] => 0
  | .claimed u :: h => (if u = t then 1 else 0) + outstanding t h
  | .releasing u :: h => outstanding t h - if u = t then 1 else 0
  | .releaseFailed u :: h => (if u = t then 1 else 0) + outstanding t h
  | _ :: h => outstanding t h

end Verif.Threads.RecursiveLock.Spec
