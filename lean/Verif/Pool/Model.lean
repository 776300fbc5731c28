/-!
# The thread pool and the blocking queue of the build tool

`sources/lib/jam/thread-pool.dylan` (TP) and `sources/lib/jam/blocking-deque.dylan` (BD).

Threads are interleaved.  What is done while the lock is held is one step; that locks exclude one another and that `wait-for`
gives the lock away and takes it again is the subject of C24 to C26.  A thread can also wake up from `wait-for` without a release.
Simplifications: tasks are numbers, and a task that is run ends normally or goes on for ever.
-/

namespace Verif.Pool

/-- Where a worker thread (TP:31-44) or a caller of `blocking-pop` (BD:31-38) is: before taking the lock, in `wait-for`, in
`wait-for` but released, running a task (or having got an element), or at its end. -/
inductive Worker where
  | ready
  | waiting
  | woken
  | running (task : Nat)
  | ended
  deriving DecidableEq

/-- `release` of a notification: one of the threads that wait for it is released, if there is one. -/
inductive Released : List Worker → List Worker → Prop where
  | nobody {ws : List Worker} : (∀ w ∈ ws, w ≠ .waiting) → Released ws ws
  | one {ws : List Worker} (i : Nat) : ws[i]? = some .waiting → Released ws (ws.set i .woken)

/-- `release-all` of a notification. -/
def wakeAll (ws : List Worker) : List Worker := ws.map fun w => if w = .waiting then .woken else w

/-- `%pool-state` (TP:17-18). -/
inductive PState where
  | stopped
  | running
  | stopping
  deriving DecidableEq

/-- How far a call of `thread-pool-stop` is: there is none, it waits in `join-thread` (TP:63), or that has returned. -/
inductive Stop where
  | none
  | joining
  | joined
  deriving DecidableEq

/-- A `<thread-pool>` (TP:10-19), all the threads that were made for it, and a call of `thread-pool-stop` that goes on.  There is at
most one, as it needs a running pool (TP:58-60).  The last three are not in the code: all tasks that were added, all tasks that
were started, and the number of starts. -/
structure Pool where
  size : Nat
  state : PState
  queue : List Nat
  workers : List Worker
  threads : List Nat
  stop : Stop
  added : List Nat
  started : List Nat
  starts : Nat
  deriving DecidableEq

/-- `make(<thread-pool>, size: n)` (TP:10-26). -/
def Pool.make (n : Nat) : Pool := ⟨n, .stopped, [], [], [], .none, [], [], 0⟩

/-- What `worker` does with the lock (TP:32-39): it waits, it takes a task, or there is none and it ends (TP:40-43). -/
def Pool.turn (s : Pool) (i : Nat) : Pool :=
  if s.state = .running then
    match s.queue with
    | [] => { s with workers := s.workers.set i .waiting }
    | t :: q => { s with queue := q, workers := s.workers.set i (.running t), started := s.started ++ [t] }
  else { s with workers := s.workers.set i .ended }

/-- The steps of the worker threads (TP:31-44). -/
inductive WStep : Pool → Pool → Prop where
  | turn {s : Pool} (i : Nat) : s.workers[i]? = some .ready ∨ s.workers[i]? = some .woken → WStep s (s.turn i)
  | finish {s : Pool} (i t : Nat) : s.workers[i]? = some (.running t) →
      WStep s { s with workers := s.workers.set i .ready }

/-- `thread-pool-start` (TP:46-53). -/
def Pool.start (s : Pool) : Pool :=
  { s with
    state := .running
    workers := s.workers ++ List.replicate s.size .ready
    threads := s.threads ++ List.range' s.workers.length s.size
    starts := s.starts + 1 }

/-- `thread-pool-add` (TP:70-78); the workers are those after the release. -/
def Pool.add (s : Pool) (t : Nat) (ws : List Worker) : Pool :=
  { s with queue := s.queue ++ [t], workers := ws, added := s.added ++ [t] }

/-- All steps.  `join-thread` of several threads returns when one of them has ended (`sources/dylan/thread.dylan` 125-151). -/
inductive Step : Pool → Pool → Prop where
  | worker {s s' : Pool} : WStep s s' → Step s s'
  | spurious {s : Pool} (i : Nat) : s.workers[i]? = some .waiting → Step s { s with workers := s.workers.set i .woken }
  | start {s : Pool} : s.state = .stopped → Step s s.start
  | addFirst {s : Pool} (t : Nat) (ws : List Worker) : s.queue = [] → Released s.workers ws → Step s (s.add t ws)
  | addMore {s : Pool} (t : Nat) : s.queue ≠ [] → Step s (s.add t s.workers)
  | stopBegin {s : Pool} : s.state = .running →
      Step s { s with state := .stopping, workers := wakeAll s.workers, stop := .joining }
  | stopJoin {s : Pool} (i : Nat) : s.stop = .joining → i ∈ s.threads → s.workers[i]? = some .ended →
      Step s { s with stop := .joined }
  | stopEnd {s : Pool} : s.stop = .joined → Step s { s with state := .stopped, threads := [], stop := .none }

/-- The states that can be reached. -/
inductive Reach (n : Nat) : Pool → Prop where
  | make : Reach n (Pool.make n)
  | step {s s' : Pool} : Reach n s → Step s s' → Reach n s'

/-- Runs of the workers, without calls from outside. -/
inductive WRun : Pool → Nat → Pool → Prop where
  | refl (s : Pool) : WRun s 0 s
  | step {s s' s'' : Pool} {n : Nat} : WStep s s' → WRun s' n s'' → WRun s (n + 1) s''

/-! ### The blocking queue -/

/-- A `<blocking-deque>` (BD:8-12) with the threads that call `blocking-pop`.  The last two are not in the code: all elements that
were pushed, and all that were returned. -/
structure BDeque where
  queue : List Nat
  callers : List Worker
  pushed : List Nat
  popped : List Nat
  deriving DecidableEq

/-- `push-last` (BD:21-29); the callers are those after the release. -/
def BDeque.push (d : BDeque) (x : Nat) (ws : List Worker) : BDeque :=
  { d with queue := d.queue ++ [x], callers := ws, pushed := d.pushed ++ [x] }

/-- What `blocking-pop` does with the lock (BD:32-37). -/
def BDeque.turn (d : BDeque) (i : Nat) : BDeque :=
  match d.queue with
  | [] => { d with callers := d.callers.set i .waiting }
  | x :: q => { d with queue := q, callers := d.callers.set i (.running x), popped := d.popped ++ [x] }

/-- All steps: a push, a turn of a caller, a wake-up without release, and another call of a thread that has got an element. -/
inductive DStep : BDeque → BDeque → Prop where
  | push {d : BDeque} (x : Nat) (ws : List Worker) : Released d.callers ws → DStep d (d.push x ws)
  | turn {d : BDeque} (i : Nat) : d.callers[i]? = some .ready ∨ d.callers[i]? = some .woken → DStep d (d.turn i)
  | spurious {d : BDeque} (i : Nat) : d.callers[i]? = some .waiting → DStep d { d with callers := d.callers.set i .woken }
  | again {d : BDeque} (i x : Nat) : d.callers[i]? = some (.running x) → DStep d { d with callers := d.callers.set i .ready }

/-- The states that can be reached with some number of calling threads. -/
inductive DReach (n : Nat) : BDeque → Prop where
  | make : DReach n ⟨[], List.replicate n .ready, [], []⟩
  | step {d d' : BDeque} : DReach n d → DStep d d' → DReach n d'

end Verif.Pool
