import Verif.Threads.Run
import Mathlib.Logic.Function.Basic
/-
Model of `<semaphore>` as implemented by `sources/lib/run-time/posix-threads.c` (called from
`sources/dylan/locks.dylan` 91-138), in its two variants: on POSIX semaphores (Linux, FreeBSD) and
emulated with a mutex and a condition variable (macOS, posix-threads.h 50-57).
-/
namespace Verif.Threads.Semaphore

/-- What the API shows: returns of `wait-for` (successful or timed out) and of `release` (successful or
with an error); `releasing` is the call of `release` (locks.dylan 109-133). -/
inductive Event (T : Type)
  | waited (t : T)
  | timedOut (t : T)
  | releasing (t : T)
  | released (t : T)
  | releaseFailed (t : T)

/-- The thread of an event. -/
def Event.thread {T : Type} : Event T → T
  | .waited t | .timedOut t | .releasing t | .released t | .releaseFailed t => t

open Function (update)

namespace Posix

/-- `SEMAPHORE` with `HAVE_POSIX_SEMAPHORES` (posix-threads.h 171-173): the value of the semaphore, and
which threads are inside `release`.  The `maximum-count` is not stored anywhere
(`primitive_make_semaphore`, posix-threads.c 1332-1353, only checks it against `SEM_VALUE_MAX`). -/
structure State (T : Type) where
  value : Nat
  inRelease : T → Bool

/-- `primitive_make_semaphore` (posix-threads.c 1318-1353). -/
def init (T : Type) (initial : Nat) (s : State T) : Prop :=
  s.value = initial ∧ ∀ t, s.inRelease t = false

/-- One step of some thread.  `sem_wait`, `sem_timedwait` and `sem_post` are atomic; `sem_post` fails
with `EOVERFLOW` at `semMax` = `SEM_VALUE_MAX`. -/
inductive Step {T : Type} [DecidableEq T] (semMax : Nat) : State T → Option (Event T) → State T → Prop
  /-- `sem_wait` returns (posix-threads.c 769, 923). -/
  | wait {s t} : s.inRelease t = false → 0 < s.value →
      Step semMax s (some (.waited t)) { s with value := s.value - 1 }
  /-- `sem_timedwait` times out (924-926). -/
  | timeout {s t} : s.inRelease t = false → Step semMax s (some (.timedOut t)) s
  /-- `release` is called (1054). -/
  | releasing {s t} : s.inRelease t = false →
      Step semMax s (some (.releasing t)) { s with inRelease := update s.inRelease t true }
  /-- `sem_post` succeeds (1065). -/
  | post {s t} : s.inRelease t = true → s.value < semMax →
      Step semMax s (some (.released t)) ⟨s.value + 1, update s.inRelease t false⟩
  /-- `sem_post` fails: `GENERAL_ERROR` (1066-1069). -/
  | overflow {s t} : s.inRelease t = true → semMax ≤ s.value →
      Step semMax s (some (.releaseFailed t)) { s with inRelease := update s.inRelease t false }

/-- All executions of any number of threads. -/
abbrev Exec {T : Type} [DecidableEq T] (semMax initial : Nat) : List (Event T) → State T → Prop :=
  Run (init T initial) (Step semMax)

end Posix

namespace Emulated

/-- Program points of the emulation, posix-threads.c 775-790, 933-958, 1071-1085: holding the mutex
before the test of the count (`wTest`), blocked on the condition (`sleep`), before the unlock of a
successful (`wUnlock`) or timed-out (`tUnlock`) wait, before the lock (`rLock`), the test (`rTest`), the
unlock (`rUnlock`) and the signal (`rSignal`) of a release. -/
inductive PC | idle | wTest | sleep | wUnlock | tUnlock | rLock | rTest | rUnlock | rSignal
  deriving DecidableEq

/-- `SEMAPHORE` without `HAVE_POSIX_SEMAPHORES` (posix-threads.h 175-178).  The mutex is initialised
with default attributes (posix-threads.c 1355). -/
structure State (T : Type) where
  mutex : Option T
  count : Int
  pc : T → PC

/-- `primitive_make_semaphore` (posix-threads.c 1354-1366). -/
def init (T : Type) (initial : Int) (s : State T) : Prop :=
  s.mutex = none ∧ s.count = initial ∧ ∀ t, s.pc t = .idle

/-- One step of some thread.  Locking the mutex waits until it is free, also for its holder (which for
a default mutex is a deadlock or undefined).  Wake-ups may be spurious, so they are possible at any time
and signalling has no effect on the modelled state. -/
inductive Step {T : Type} [DecidableEq T] (max : Int) : State T → Option (Event T) → State T → Prop
  /-- `pthread_mutex_lock` in a wait (posix-threads.c 775, 933). -/
  | wLock {s t} : s.pc t = .idle → s.mutex = none →
      Step max s none { s with mutex := some t, pc := update s.pc t .wTest }
  /-- `while (count <= 0) pthread_cond_wait` (780-782, 938-939). -/
  | wBlock {s t} : s.pc t = .wTest → s.count ≤ 0 →
      Step max s none { s with mutex := none, pc := update s.pc t .sleep }
  /-- the condition wait returns with the mutex. -/
  | wake {s t} : s.pc t = .sleep → s.mutex = none →
      Step max s none { s with mutex := some t, pc := update s.pc t .wTest }
  /-- the condition wait times out, and returns with the mutex (939). -/
  | wakeTimeout {s t} : s.pc t = .sleep → s.mutex = none →
      Step max s none { s with mutex := some t, pc := update s.pc t .tUnlock }
  /-- unlock and return `TIMEOUT` (944-948). -/
  | tUnlock {s t} : s.pc t = .tUnlock →
      Step max s (some (.timedOut t)) { s with mutex := none, pc := update s.pc t .idle }
  /-- `count--` (784, 952). -/
  | wDecr {s t} : s.pc t = .wTest → 0 < s.count →
      Step max s none { s with count := s.count - 1, pc := update s.pc t .wUnlock }
  /-- unlock and return (786-792, 954-960). -/
  | wUnlock {s t} : s.pc t = .wUnlock →
      Step max s (some (.waited t)) { s with mutex := none, pc := update s.pc t .idle }
  /-- `release` is called (1054). -/
  | releasing {s t} : s.pc t = .idle →
      Step max s (some (.releasing t)) { s with pc := update s.pc t .rLock }
  /-- `pthread_mutex_lock` in a release (1071). -/
  | rLock {s t} : s.pc t = .rLock → s.mutex = none →
      Step max s none { s with mutex := some t, pc := update s.pc t .rTest }
  /-- `count >= max_count`: return `COUNT_EXCEEDED` (1076-1079); the mutex is not unlocked. -/
  | exceeded {s t} : s.pc t = .rTest → max ≤ s.count →
      Step max s (some (.releaseFailed t)) { s with pc := update s.pc t .idle }
  /-- `count++` (1081). -/
  | rIncr {s t} : s.pc t = .rTest → s.count < max →
      Step max s none { s with count := s.count + 1, pc := update s.pc t .rUnlock }
  /-- unlock (1083). -/
  | rUnlock {s t} : s.pc t = .rUnlock →
      Step max s none { s with mutex := none, pc := update s.pc t .rSignal }
  /-- signal and return (1084-1090). -/
  | rSignal {s t} : s.pc t = .rSignal →
      Step max s (some (.released t)) { s with pc := update s.pc t .idle }

/-- All executions of any number of threads. -/
abbrev Exec {T : Type} [DecidableEq T] (max initial : Int) : List (Event T) → State T → Prop :=
  Run (init T initial) (Step max)

end Emulated
end Verif.Threads.Semaphore
