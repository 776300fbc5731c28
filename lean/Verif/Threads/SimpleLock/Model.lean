import Verif.Threads.Run
import Mathlib.Logic.Function.Basic
/-
Model of `<simple-lock>` and of waiting on a `<notification>` as implemented by
`sources/lib/run-time/posix-threads.c` (called from `sources/dylan/locks.dylan` 281-320 and
`sources/dylan/notification.dylan` 59-88).  Each C statement that reads or writes shared memory is one
atomic step; a schedule is any sequence of such steps of any threads.

POSIX semantics assumed: a `PTHREAD_MUTEX_ERRORCHECK` mutex (posix-threads.c 1225-1240) has at most one
holder; locking it blocks while another thread holds it and returns `EDEADLK` to its holder; unlocking
returns `EPERM` to a non-holder; `pthread_cond_wait` returns `EPERM` to a thread that does not hold the
mutex, otherwise it releases the mutex and starts waiting atomically and takes the mutex again before it
returns.  Spurious wake-ups are allowed by POSIX, so a wake-up is possible at any time and signalling
needs no step of its own.
-/
namespace Verif.Threads.SimpleLock

/-- Where a thread is inside the primitives.  Models the program points of
posix-threads.c 700-726, 797-821, 1002-1024: between the mutex lock and `owner = teb` (`store`), before
`owner = 0` (`clear`), before the mutex unlock (`unlock`), before `pthread_cond_wait` (`condCall`), and
blocked inside it (`sleep`). -/
inductive PC | idle | store | clear | unlock | condCall | sleep
  deriving DecidableEq

/-- What the API shows.  Models the returns of `wait-for`, `release`, `owned?` on a simple lock
(locks.dylan 281-320) and of `wait-for` on its notification (notification.dylan 67-84); `releasing` and
`waiting` are the calls. -/
inductive Event (T : Type)
  | claimed (t : T)
  | claimFailed (t : T)
  | claimTimedOut (t : T)
  | releasing (t : T)
  | released (t : T)
  | releaseFailed (t : T)
  | owned (t : T) (answer : Bool)
  | waiting (t : T)
  | woke (t : T) (timedOut : Bool)
  | waitFailed (t : T)

/-- `SIMPLELOCK` (posix-threads.h 160-163: the `owner` word and the mutex with its holder), and where
each thread is. -/
structure State (T : Type) where
  owner : Option T
  mutex : Option T
  pc : T → PC

/-- `primitive_make_simple_lock` (posix-threads.c 1210-1254). -/
def init (T : Type) (s : State T) : Prop :=
  s.owner = none ∧ s.mutex = none ∧ ∀ t, s.pc t = .idle

open Function (update)

/-- One atomic step of some thread `t`. -/
inductive Step {T : Type} [DecidableEq T] : State T → Option (Event T) → State T → Prop
  /-- `pthread_mutex_lock` succeeds (posix-threads.c 712, 844). -/
  | lock {s t} : s.pc t = .idle → s.mutex = none →
      Step s none { s with mutex := some t, pc := update s.pc t .store }
  /-- `pthread_mutex_lock` returns `EDEADLK`: `ALREADY_LOCKED` (713-715, 848-850). -/
  | deadlk {s t} : s.pc t = .idle → s.mutex = some t → Step s (some (.claimFailed t)) s
  /-- the timed lock gives up (845-847); possible at any time. -/
  | timeout {s t} : s.pc t = .idle → Step s (some (.claimTimedOut t)) s
  /-- `slock->owner = teb; return OK` (721-723, 856-858). -/
  | store {s t} : s.pc t = .store →
      Step s (some (.claimed t)) { s with owner := some t, pc := update s.pc t .idle }
  /-- `release` is called (1002). -/
  | releasing {s t} : s.pc t = .idle →
      Step s (some (.releasing t)) { s with pc := update s.pc t .clear }
  /-- `slock->owner = 0` (1012). -/
  | clear {s t} : s.pc t = .clear →
      Step s none { s with owner := none, pc := update s.pc t .unlock }
  /-- `pthread_mutex_unlock` succeeds (1014, 1023). -/
  | unlock {s t} : s.pc t = .unlock → s.mutex = some t →
      Step s (some (.released t)) { s with mutex := none, pc := update s.pc t .idle }
  /-- `pthread_mutex_unlock` returns `EPERM`: `NOT_LOCKED` (1015-1017). -/
  | eperm {s t} : s.pc t = .unlock → s.mutex ≠ some t →
      Step s (some (.releaseFailed t)) { s with pc := update s.pc t .idle }
  /-- `primitive_owned_simple_lock` (1278-1294). -/
  | owned {s t b} : s.pc t = .idle → b = decide (s.owner = some t) → Step s (some (.owned t b)) s
  /-- `wait-for(notification)` is called (797, 965). -/
  | waiting {s t} : s.pc t = .idle →
      Step s (some (.waiting t)) { s with pc := update s.pc t .condCall }
  /-- `pthread_cond_wait` releases the mutex and waits (813, 988). -/
  | condWait {s t} : s.pc t = .condCall → s.mutex = some t →
      Step s none { s with mutex := none, pc := update s.pc t .sleep }
  /-- `pthread_cond_wait` returns `EPERM`: `GENERAL_ERROR` (814-817, 992-995). -/
  | condPerm {s t} : s.pc t = .condCall → s.mutex ≠ some t →
      Step s (some (.waitFailed t)) { s with pc := update s.pc t .idle }
  /-- `pthread_cond_wait` takes the mutex again and returns (819; timed out: 989-991). -/
  | wake {s t b} : s.pc t = .sleep → s.mutex = none →
      Step s (some (.woke t b)) { s with mutex := some t, pc := update s.pc t .idle }

/-- All executions: any number of threads, any interleaving. -/
abbrev Exec {T : Type} [DecidableEq T] : List (Event T) → State T → Prop := Run (init T) Step

end Verif.Threads.SimpleLock
