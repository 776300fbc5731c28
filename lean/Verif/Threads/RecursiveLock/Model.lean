import Verif.Threads.Run
import Mathlib.Logic.Function.Basic
/-
Model of `<recursive-lock>` as implemented by `sources/lib/run-time/posix-threads.c` (called from
`sources/dylan/locks.dylan` 190-232).  One atomic step per access to shared memory.

POSIX semantics assumed: a `PTHREAD_MUTEX_RECURSIVE` mutex (posix-threads.c 1164-1175) has at most one
holder and a nesting depth; locking it blocks while another thread holds it; unlocking it returns `EPERM`
to a non-holder and otherwise lowers the depth, freeing the mutex at depth zero.  `atomic_increment` and
`atomic_decrement` are atomic (run-time.h 166-184).
-/
namespace Verif.Threads.RecursiveLock

/-- Program points of posix-threads.c 728-754 and 1028-1050: before `atomic_increment` (`incr`), before
`owner = teb` (`store`), before the mutex unlock (`unlock`), before `atomic_decrement` (`decr`). -/
inductive PC | idle | incr | store | unlock | decr
  deriving DecidableEq

/-- What the API shows: returns of `wait-for`, `release` and `owned?` (locks.dylan 190-225);
`releasing` is the call of `release`. -/
inductive Event (T : Type)
  | claimed (t : T)
  | claimTimedOut (t : T)
  | releasing (t : T)
  | released (t : T)
  | releaseFailed (t : T)
  | owned (t : T) (answer : Bool)

/-- `RECURSIVELOCK` (posix-threads.h 165-169): `owner`, `count`, and the mutex with its holder and
depth.  `count` is a C `long`; that it overflows after `2^63` nested claims is not modelled. -/
structure State (T : Type) where
  owner : Option T
  count : Int
  mutex : Option T
  depth : Nat
  pc : T → PC

/-- `primitive_make_recursive_lock` (posix-threads.c 1141-1186). -/
def init (T : Type) (s : State T) : Prop :=
  s.owner = none ∧ s.count = 0 ∧ s.mutex = none ∧ s.depth = 0 ∧ ∀ t, s.pc t = .idle

open Function (update)

/-- One atomic step of some thread `t`. -/
inductive Step {T : Type} [DecidableEq T] : State T → Option (Event T) → State T → Prop
  /-- `pthread_mutex_lock` of the free mutex, or nested (posix-threads.c 740, 883). -/
  | lock {s t} : s.pc t = .idle → (s.mutex = none ∨ s.mutex = some t) →
      Step s none { s with mutex := some t, depth := s.depth + 1, pc := update s.pc t .incr }
  /-- the timed lock gives up (884-886); possible at any time. -/
  | timeout {s t} : s.pc t = .idle → Step s (some (.claimTimedOut t)) s
  /-- `atomic_increment(&rlock->count)` (749, 895). -/
  | incr {s t} : s.pc t = .incr →
      Step s none { s with count := s.count + 1, pc := update s.pc t .store }
  /-- `rlock->owner = teb; return OK` (751-753, 897-899). -/
  | store {s t} : s.pc t = .store →
      Step s (some (.claimed t)) { s with owner := some t, pc := update s.pc t .idle }
  /-- `release` is called (1028). -/
  | releasing {s t} : s.pc t = .idle →
      Step s (some (.releasing t)) { s with pc := update s.pc t .unlock }
  /-- `pthread_mutex_unlock` by the holder (1038). -/
  | unlock {s t} : s.pc t = .unlock → s.mutex = some t →
      Step s none { s with mutex := if s.depth = 1 then none else some t, depth := s.depth - 1,
                           pc := update s.pc t .decr }
  /-- `pthread_mutex_unlock` returns `EPERM`: `NOT_LOCKED` (1039-1041). -/
  | eperm {s t} : s.pc t = .unlock → s.mutex ≠ some t →
      Step s (some (.releaseFailed t)) { s with pc := update s.pc t .idle }
  /-- `atomic_decrement(&rlock->count); return OK` (1047-1049). -/
  | decr {s t} : s.pc t = .decr →
      Step s (some (.released t)) { s with count := s.count - 1, pc := update s.pc t .idle }
  /-- `primitive_owned_recursive_lock` (1298-1314).  The two reads of the C condition are taken as one
  step. -/
  | owned {s t b} : s.pc t = .idle → b = decide (s.owner = some t ∧ s.count ≠ 0) →
      Step s (some (.owned t b)) s

/-- All executions: any number of threads, any interleaving. -/
abbrev Exec {T : Type} [DecidableEq T] : List (Event T) → State T → Prop := Run (init T) Step

end Verif.Threads.RecursiveLock
