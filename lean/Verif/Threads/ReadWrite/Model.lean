import Verif.Threads.Run
import Mathlib.Logic.Function.Basic
/-
Model of `<read-write-lock>` (`sources/dylan/locks.dylan` 307-454): a state word kept by a monitor, that is
by a simple lock (the inner lock) and a notification.  One atomic step per access to shared memory.

The inner lock and its notification behave as POSIX says (see `Verif.Threads.SimpleLock.Model`): waiting
releases the inner lock and starts waiting in one step; every waiter that a `release-all` finds is
notified; a wait may also end spuriously or by time-out, with the inner lock claimed again.
-/
namespace Verif.Threads.ReadWrite

/-- The modes of `wait-for` (locks.dylan 375-407). -/
inductive Mode | read | write
  deriving DecidableEq

/-- `<lock-state>` (locks.dylan 311-325): an integer or a thread.  The integer is never negative. -/
inductive LState (T : Type)
  | reading (n : Nat)
  | writing (t : T)
  deriving DecidableEq

/-- Program points: `wTest` (inner lock claimed, before the test), `sleep` (inside `wait-for(monitor)`),
`tUnlock` (timed out, before the inner release), `wUnlock` (state set, before the inner release), `rLock`
(before the inner claim of a release), `rTest` (inner lock claimed), `rAll` (before `release-all`),
`rUnlock` (before the inner release, with the result). -/
inductive PC | idle | wTest (m : Mode) | sleep (m : Mode) | tUnlock | wUnlock (m : Mode)
  | rLock | rTest | rAll | rUnlock (ok : Bool)
  deriving DecidableEq

/-- What the API shows: the returns of `wait-for` (locks.dylan 375-414), `release` (344-372), `owned?` and
`owned-for-reading?` (417-423); `releasing` is the call of `release`. -/
inductive Event (T : Type)
  | acquired (t : T) (m : Mode)
  | timedOut (t : T)
  | releasing (t : T)
  | released (t : T)
  | releaseFailed (t : T)
  | owned (t : T) (answer : Bool)
  | ownedForReading (t : T) (answer : Bool)
  deriving DecidableEq

/-- The lock: its state, the holder of the inner lock, where each thread is, and which threads wait for
the notification and have not been notified. -/
structure State (T : Type) where
  state : LState T
  inner : Option T
  pc : T → PC
  waiting : T → Bool

/-- A new lock (locks.dylan 328-331). -/
def init (T : Type) (s : State T) : Prop :=
  s.state = .reading 0 ∧ s.inner = none ∧ (∀ t, s.pc t = .idle) ∧ ∀ t, s.waiting t = false

/-- `lock-is-free?` and `lock-is-free-for-reading?` (locks.dylan 437-445). -/
def LState.freeFor {T : Type} : LState T → Mode → Bool
  | .reading _, .read => true
  | .reading n, .write => n == 0
  | .writing _, _ => false

/-- The new state (locks.dylan 394, 404). -/
def LState.grant {T : Type} (t : T) : LState T → Mode → LState T
  | _, .write => .writing t
  | .reading n, .read => .reading (n + 1)
  | .writing u, .read => .writing u

/-- `locked-for-writing?` (locks.dylan 427-430). -/
def LState.lockedForWriting {T : Type} [DecidableEq T] (t : T) : LState T → Bool
  | .reading _ => false
  | .writing u => decide (u = t)

/-- `locked-for-reading?` (locks.dylan 432-435). -/
def LState.lockedForReading {T : Type} : LState T → Bool
  | .reading n => decide (0 < n)
  | .writing _ => false

open Function (update)

/-- One atomic step of some thread `t`. -/
inductive Step {T : Type} [DecidableEq T] : State T → Option (Event T) → State T → Prop
  /-- the inner lock is claimed by `wait-for` (384). -/
  | wLock {s t m} : s.pc t = .idle → s.inner = none →
      Step s none { s with inner := some t, pc := update s.pc t (.wTest m) }
  /-- not free: wait for the notification (387-388, 397-398). -/
  | wBlock {s t m} : s.pc t = .wTest m → s.state.freeFor m = false →
      Step s none { s with inner := none, pc := update s.pc t (.sleep m), waiting := update s.waiting t true }
  /-- the wait ends, notified or spuriously. -/
  | wake {s t m} : s.pc t = .sleep m → s.inner = none →
      Step s none { s with inner := some t, pc := update s.pc t (.wTest m), waiting := update s.waiting t false }
  /-- the wait times out (391, 401). -/
  | wakeTimeout {s t m} : s.pc t = .sleep m → s.inner = none →
      Step s none { s with inner := some t, pc := update s.pc t .tUnlock, waiting := update s.waiting t false }
  /-- `exit(#f)`: the inner lock is released (391, 401). -/
  | tUnlock {s t} : s.pc t = .tUnlock →
      Step s (some (.timedOut t)) { s with inner := none, pc := update s.pc t .idle }
  /-- the state is set (394, 404). -/
  | grant {s t m} : s.pc t = .wTest m → s.state.freeFor m = true →
      Step s none { s with state := s.state.grant t m, pc := update s.pc t (.wUnlock m) }
  /-- the inner lock is released and `wait-for` returns (407-408). -/
  | wUnlock {s t m} : s.pc t = .wUnlock m →
      Step s (some (.acquired t m)) { s with inner := none, pc := update s.pc t .idle }
  /-- `release` is called (344). -/
  | releasing {s t} : s.pc t = .idle →
      Step s (some (.releasing t)) { s with pc := update s.pc t .rLock }
  /-- the inner lock is claimed by `release` (350). -/
  | rLock {s t} : s.pc t = .rLock → s.inner = none →
      Step s none { s with inner := some t, pc := update s.pc t .rTest }
  /-- locked for writing by this thread (353-354). -/
  | rWriter {s t} : s.pc t = .rTest → s.state.lockedForWriting t = true →
      Step s none { s with state := .reading 0, pc := update s.pc t .rAll }
  /-- locked for reading: one less (358-361). -/
  | rReader {s t n} : s.pc t = .rTest → s.state = .reading (n + 1) →
      Step s none { s with state := .reading n, pc := update s.pc t (if n = 0 then .rAll else .rUnlock true) }
  /-- neither (366). -/
  | rNone {s t} : s.pc t = .rTest → s.state.lockedForWriting t = false → s.state.lockedForReading = false →
      Step s none { s with pc := update s.pc t (.rUnlock false) }
  /-- `release-all` (355, 362). -/
  | rAll {s t} : s.pc t = .rAll →
      Step s none { s with pc := update s.pc t (.rUnlock true), waiting := fun _ => false }
  /-- the inner lock is released, and `release` returns (368-372). -/
  | rUnlock {s t} : s.pc t = .rUnlock true →
      Step s (some (.released t)) { s with inner := none, pc := update s.pc t .idle }
  /-- the same, and an error is signalled (370-372). -/
  | rFail {s t} : s.pc t = .rUnlock false →
      Step s (some (.releaseFailed t)) { s with inner := none, pc := update s.pc t .idle }
  /-- `owned?` (417-419). -/
  | owned {s t} : s.pc t = .idle → Step s (some (.owned t (s.state.lockedForWriting t))) s
  /-- `owned-for-reading?` (421-423). -/
  | ownedForReading {s t} : s.pc t = .idle → Step s (some (.ownedForReading t s.state.lockedForReading)) s

/-- All executions: any number of threads, any interleaving. -/
abbrev Exec {T : Type} [DecidableEq T] : List (Event T) → State T → Prop := Run (init T) Step

end Verif.Threads.ReadWrite
