import Verif.Threads.ReadWrite.Model
/-
What a read-write lock is for its users.  Only API events are mentioned.
-/
namespace Verif.Threads.ReadWrite.Spec
open Function (update)
variable {T : Type} [DecidableEq T]

/-! ### The documented lock

`documentation/source/library-reference/dylan/threads.rst` 1117-1225. -/

/-- Free (`count 0`), locked in read mode some number of times, or owned by a thread. -/
inductive Doc (T : Type)
  | count (n : Nat)
  | owner (t : T)

/-- The effects of the documented operations on a lock, as a relation between histories (most recent event
first) and the lock.  "A `<read-write-lock>` can only be locked in write mode if the lock is free"; it "can be
locked in read mode provided that it is not owned with a write lock"; releasing frees a lock owned by the
thread, or lowers the count, and otherwise signals an error; `owned?` answers whether the thread owns it. -/
inductive DocAfter : List (Event T) → Doc T → Prop
  | new : DocAfter [] (.count 0)
  | write {h t} : DocAfter h (.count 0) → DocAfter (.acquired t .write :: h) (.owner t)
  | read {h t n} : DocAfter h (.count n) → DocAfter (.acquired t .read :: h) (.count (n + 1))
  | releasing {h t d} : DocAfter h d → DocAfter (.releasing t :: h) d
  | freed {h t} : DocAfter h (.owner t) → DocAfter (.released t :: h) (.count 0)
  | lowered {h t n} : DocAfter h (.count (n + 1)) → DocAfter (.released t :: h) (.count n)
  | free {h t} : DocAfter h (.count 0) → DocAfter (.releaseFailed t :: h) (.count 0)
  | foreign {h t u} : DocAfter h (.owner u) → u ≠ t → DocAfter (.releaseFailed t :: h) (.owner u)
  | timedOut {h t d} : DocAfter h d → DocAfter (.timedOut t :: h) d
  | owns {h t} : DocAfter h (.owner t) → DocAfter (.owned t true :: h) (.owner t)
  | ownsNot {h t d} : DocAfter h d → d ≠ .owner t → DocAfter (.owned t false :: h) d
  | ownedForReading {h t b d} : DocAfter h d → DocAfter (.ownedForReading t b :: h) d

/-! ### Threads that release what they have claimed -/

/-- The abstract lock: the thread that holds it for writing, and how often each thread holds it for
reading. -/
structure Lock (T : Type) where
  writer : Option T
  reads : T → Nat

/-- `t` holds the lock. -/
def Lock.Holds (l : Lock T) (t : T) : Prop := l.writer = some t ∨ 0 < l.reads t

/-- The abstract lock after a history (most recent event first).  A lock is granted for writing only when
nobody holds it, for reading only when nobody holds it for writing; only holders give it up, and that
succeeds. -/
inductive After : List (Event T) → Lock T → Prop
  | new : After [] ⟨none, fun _ => 0⟩
  | write {h l t} : After h l → l.writer = none → (∀ u, l.reads u = 0) →
      After (.acquired t .write :: h) { l with writer := some t }
  | read {h l t} : After h l → l.writer = none →
      After (.acquired t .read :: h) { l with reads := update l.reads t (l.reads t + 1) }
  | endWrite {h l t} : After h l → l.writer = some t → After (.releasing t :: h) { l with writer := none }
  | endRead {h l t} : After h l → 0 < l.reads t →
      After (.releasing t :: h) { l with reads := update l.reads t (l.reads t - 1) }
  | released {h l t} : After h l → After (.released t :: h) l
  | timedOut {h l t} : After h l → After (.timedOut t :: h) l
  | owned {h l t b} : After h l → (b = true ↔ l.writer = some t) → After (.owned t b :: h) l
  | ownedForReading {h l t b} : After h l → After (.ownedForReading t b :: h) l

/-- How often `t` has claimed the lock and not released it. -/
def outstanding (t : T) : List (Event T) → Int
  | [] => 0
  | .acquired u _ :: h => outstanding t h + if u = t then 1 else 0
  | .releasing u :: h => outstanding t h - if u = t then 1 else 0
  | _ :: h => outstanding t h

/-- In the history threads release only what they have claimed. -/
def Disciplined : List (Event T) → Prop
  | [] => True
  | .releasing t :: h => 0 < outstanding t h ∧ Disciplined h
  | _ :: h => Disciplined h

end Verif.Threads.ReadWrite.Spec
