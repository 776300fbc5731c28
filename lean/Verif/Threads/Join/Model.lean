import Verif.Threads.Run
import Mathlib.Logic.Function.Basic
/-
Model of `join-thread` (`sources/dylan/thread.dylan` 124-152) on top of
`primitive_thread_join_single`, `primitive_thread_join_multiple` and the completion of a thread in
`trampoline` (`sources/lib/run-time/posix-threads.c` 452-489, 558-670).

All accesses to the flags of a thread happen while `thread_join_lock` is held, so each stretch of code
from acquiring that mutex to releasing it, or to blocking in `pthread_cond_wait` (which releases it), is
one atomic step; such a step needs the mutex to be free.  Wake-ups may be spurious, so a waiter can
re-examine the flags at any time the mutex is free.
-/
namespace Verif.Threads.Join

open Function (update)

/-- The flag bits of `handle1` (posix-threads.h 84-86). -/
structure Flags where
  completed : Bool
  marked : Bool
  joined : Bool
  deriving DecidableEq

/-- Where a thread is: running Dylan code, finished, or inside `join-thread`: called with one thread or
with several, or blocked in `pthread_cond_wait` (posix-threads.c 580, 645). -/
inductive PC (T : Type)
  | idle
  | exited
  | callOne (x : T)
  | callMany (xs : List T)
  | waitOne (x : T)
  | waitMany (xs : List T)

/-- What the API shows: a thread's function returned and its completion was recorded; a call of
`join-thread`; its return with the joined thread; its `<duplicate-join-error>`. -/
inductive Event (T : Type)
  | exited (t : T)
  | joining (t : T) (xs : List T)
  | joined (t : T) (x : T)
  | joinFailed (t : T)

/-- The thread of an event. -/
def Event.thread {T : Type} : Event T → T
  | .exited t | .joining t _ | .joined t _ | .joinFailed t => t

/-- `thread_join_lock` — its holder, if a thread kept it after returning — the flags and the program
points. -/
structure State (T : Type) where
  lock : Option T
  flags : T → Flags
  pc : T → PC T

/-- Before any thread completed: flags as set by `primitive_make_thread` (posix-threads.c 511). -/
def init (T : Type) (s : State T) : Prop :=
  s.lock = none ∧ (∀ t, s.flags t = ⟨false, false, false⟩) ∧ ∀ t, s.pc t = .idle

variable {T : Type} [DecidableEq T]

/-- `handle1 ^= (JOINED | MARKED)` (posix-threads.c 587). -/
def finishOne (f : T → Flags) (x : T) : T → Flags :=
  update f x { f x with joined := !(f x).joined, marked := !(f x).marked }

/-- The loop `handle1 |= MARKED` (posix-threads.c 631-634). -/
def markAll (f : T → Flags) (xs : List T) : T → Flags :=
  xs.foldl (fun f x => update f x { f x with marked := true }) f

/-- The loop `handle1 ^= MARKED` (posix-threads.c 660-663). -/
def toggleAll (f : T → Flags) (xs : List T) : T → Flags :=
  xs.foldl (fun f x => update f x { f x with marked := !(f x).marked }) f

/-- `joined_thread->handle1 |= JOINED`, then the unmarking loop (posix-threads.c 657-663). -/
def finishMany (f : T → Flags) (x : T) (xs : List T) : T → Flags :=
  toggleAll (update f x { f x with joined := true }) xs

/-- The loops that look for the first completed thread (posix-threads.c 636-642, 649-654). -/
def firstCompleted (f : T → Flags) (xs : List T) : Option T := xs.find? (fun x => (f x).completed)

/-- `state & MARKED || state & JOINED` (posix-threads.c 571, 623). -/
def busy (f : Flags) : Bool := f.marked || f.joined

/-- One atomic step. -/
inductive Step : State T → Option (Event T) → State T → Prop
  /-- The end of `trampoline` (posix-threads.c 482-485). -/
  | exit {s t} : s.pc t = .idle → s.lock = none →
      Step s (some (.exited t))
        { s with flags := update s.flags t { s.flags t with completed := true },
                 pc := update s.pc t .exited }
  /-- `join-thread` with one argument (thread.dylan 131-134). -/
  | callOne {s t x} : s.pc t = .idle →
      Step s (some (.joining t [x])) { s with pc := update s.pc t (.callOne x) }
  /-- `join-thread` with several arguments (thread.dylan 138-141). -/
  | callMany {s t xs} : s.pc t = .idle → 2 ≤ xs.length →
      Step s (some (.joining t xs)) { s with pc := update s.pc t (.callMany xs) }
  /-- posix-threads.c 571-575. -/
  | oneDuplicate {s t x} : s.pc t = .callOne x → s.lock = none → busy (s.flags x) = true →
      Step s (some (.joinFailed t)) { s with pc := update s.pc t .idle }
  /-- posix-threads.c 577-594, the thread has completed. -/
  | oneNow {s t x} : s.pc t = .callOne x → s.lock = none → busy (s.flags x) = false →
      (s.flags x).completed = true →
      Step s (some (.joined t x))
        { s with flags := finishOne (update s.flags x { s.flags x with marked := true }) x,
                 pc := update s.pc t .idle }
  /-- posix-threads.c 577-580, the thread has not completed. -/
  | oneBlock {s t x} : s.pc t = .callOne x → s.lock = none → busy (s.flags x) = false →
      (s.flags x).completed = false →
      Step s none
        { s with flags := update s.flags x { s.flags x with marked := true },
                 pc := update s.pc t (.waitOne x) }
  /-- posix-threads.c 584-594 after the condition wait. -/
  | oneDone {s t x} : s.pc t = .waitOne x → s.lock = none → (s.flags x).completed = true →
      Step s (some (.joined t x))
        { s with flags := finishOne s.flags x, pc := update s.pc t .idle }
  /-- posix-threads.c 621-627: return without unlocking. -/
  | manyDuplicate {s t xs} : s.pc t = .callMany xs → s.lock = none →
      xs.any (fun x => busy (s.flags x)) = true →
      Step s (some (.joinFailed t)) { s with lock := some t, pc := update s.pc t .idle }
  /-- posix-threads.c 631-670, one of the threads has completed. -/
  | manyNow {s t xs x} : s.pc t = .callMany xs → s.lock = none →
      xs.any (fun x => busy (s.flags x)) = false →
      firstCompleted (markAll s.flags xs) xs = some x →
      Step s (some (.joined t x))
        { s with flags := finishMany (markAll s.flags xs) x xs, pc := update s.pc t .idle }
  /-- posix-threads.c 631-645, none has completed. -/
  | manyBlock {s t xs} : s.pc t = .callMany xs → s.lock = none →
      xs.any (fun x => busy (s.flags x)) = false →
      firstCompleted (markAll s.flags xs) xs = none →
      Step s none { s with flags := markAll s.flags xs, pc := update s.pc t (.waitMany xs) }
  /-- posix-threads.c 649-670 after the condition wait. -/
  | manyDone {s t xs x} : s.pc t = .waitMany xs → s.lock = none →
      firstCompleted s.flags xs = some x →
      Step s (some (.joined t x))
        { s with flags := finishMany s.flags x xs, pc := update s.pc t .idle }

/-- All executions of any number of threads. -/
abbrev Exec : List (Event T) → State T → Prop := Run (init T) Step

end Verif.Threads.Join
