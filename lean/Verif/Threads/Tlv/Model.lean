import Verif.Threads.Run
import Mathlib.Logic.Function.Basic
/-
Model of thread variables (`sources/lib/run-time/posix-threads.c` 250-426, 1478-1580): allocation of a
variable with growth of all vectors, reads and writes, the set-up of a new thread's vector and its
removal when the thread ends.  Each access to memory shared between threads is one atomic step, except
that

* copying a vector (`copy_tlv_vector`, 299-306) is one step: the source cannot change meanwhile unless a
  writer stores into it, and a store between the copy and the publication of the new vector is possible
  in the model;
* `list->tlv_vector` and `list->teb->tlv_vector`, which the code always sets together (283-284,
  416-422), are one field, and the list is the list of its threads;
* setting a thread up (398-426) and removing it (355-389) are one step each.  The set-up needs the list
  lock.  The removal does not take it; see the parameter `unsync`.
-/
namespace Verif.Threads.Tlv

open Function (update)

/-- `TLV_GROW` (posix-threads.c 125). -/
def grow : Int := -2000000

/-- A vector of thread variables: its size and its slots.  Slots are addressed from 2, after class and
size, so the valid offsets are below `size + 2` (1493-1495). -/
structure Vec (V : Type) where
  size : Nat
  data : Nat → V

/-- `copy_tlv_vector` into a new vector of `make_dylan_vector(newsize)` whose other slots hold a filler
(posix-threads.c 299-306; c-run-time.c 456-469). -/
def Vec.copyTo {V : Type} (v : Vec V) (newsize : Nat) (filler : V) : Vec V :=
  ⟨newsize, fun i => if i < v.size + 2 then v.data i else filler⟩

/-- Program points.  `w…`: `primitive_write_thread_variable` (1553-1577) and its slow path (1534-1551);
`r…`: `primitive_read_thread_variable` (1513-1528); `a…`: `primitive_allocate_thread_variable`
(1478-1509), with the allocated offset and the default value; `g…`: `grow_all_tlv_vectors` (265-293)
called from it. -/
inductive PC (T V : Type)
  | fresh
  | exited
  | idle
  | wInc (off : Nat) (v : V)
  | wDec (off : Nat) (v : V)
  | wLock (off : Nat) (v : V)
  | wUnlock (off : Nat) (v : V)
  | wLoad (off : Nat) (v : V)
  | wStore (off : Nat) (v : V) (a : Nat)
  | wDone (off : Nat) (v : V)
  | rRead (off : Nat) (a : Nat)
  | aOffset (v : V)
  | gEnter (off : Nat) (v : V)
  | gDefault (off : Nat) (v : V)
  | gNext (off : Nat) (v : V) (rest : List T)
  | gPublish (off : Nat) (v : V) (u : T) (rest : List T) (new : Nat)
  | aDefault (off : Nat) (v : V)
  | aUpdate (off : Nat) (v : V) (rest : List T)
  | aUnlock (off : Nat) (v : V)

/-- What the program sees: a variable was allocated (with its default value), a write or a read by a
thread returned. -/
inductive Event (T V : Type)
  | allocated (t : T) (off : Nat) (v : V)
  | wrote (t : T) (off : Nat) (v : V)
  | read (t : T) (off : Nat) (v : V)

/-- The globals of posix-threads.c 125-139, the memory holding the vectors, each thread's vector, and
the program points.  `handles` are the variables whose allocation has returned. -/
structure State (T V : Type) where
  counter : Int
  lock : Option T
  offset : Nat
  default : Nat
  list : List T
  heap : Nat → Vec V
  next : Nat
  teb : T → Option Nat
  handles : List Nat
  pc : T → PC T V

/-- `initialize_threads_primitives` (posix-threads.c 431-436), before the first thread is set up:
`TLV_VECTOR_INITIAL_SIZE` is 20 (posix-threads.h 69). -/
def init (T V : Type) (s : State T V) : Prop :=
  s.counter = 0 ∧ s.lock = none ∧ s.offset = 2 ∧ s.list = [] ∧ (s.heap s.default).size = 20 ∧
  s.default < s.next ∧ (∀ t, s.teb t = none) ∧ s.handles = [] ∧ ∀ t, s.pc t = .fresh

variable {T V : Type} [DecidableEq T]

/-- One atomic step.  With `unsync` a thread may also end while another one holds the list lock, as the
code allows; without it, the end of a thread waits for the list lock. -/
inductive Step (unsync : Bool) : State T V → Option (Event T V) → State T V → Prop
  /-- `setup_tlv_vector` (398-426). -/
  | start {s t filler} : s.pc t = .fresh → s.lock = none →
      Step unsync s none
        { s with heap := update s.heap s.next
                   ((s.heap s.default).copyTo (s.heap s.default).size filler),
                 next := s.next + 1, teb := update s.teb t (some s.next), list := t :: s.list,
                 pc := update s.pc t .idle }
  /-- `remove_tlv_vector` and `free_teb` (355-389, 480, 487). -/
  | exit {s t} : s.pc t = .idle → (s.lock = none ∨ unsync = true) →
      Step unsync s none
        { s with list := s.list.erase t, teb := update s.teb t none, pc := update s.pc t .exited }
  /-- a write of a variable is called (1553). -/
  | write {s t off v} : s.pc t = .idle → off ∈ s.handles →
      Step unsync s none { s with pc := update s.pc t (.wInc off v) }
  /-- `atomic_increment` gives a negative count (1559, 1550). -/
  | wIncNeg {s t off v} : s.pc t = .wInc off v → s.counter + 1 < 0 →
      Step unsync s none { s with counter := s.counter + 1, pc := update s.pc t (.wDec off v) }
  /-- `atomic_increment` gives a non-negative count (1559, 1550). -/
  | wIncPos {s t off v} : s.pc t = .wInc off v → 0 ≤ s.counter + 1 →
      Step unsync s none { s with counter := s.counter + 1, pc := update s.pc t (.wLoad off v) }
  /-- `atomic_decrement` gives a negative count (1543). -/
  | wDecNeg {s t off v} : s.pc t = .wDec off v → s.counter - 1 < 0 →
      Step unsync s none { s with counter := s.counter - 1, pc := update s.pc t (.wLock off v) }
  /-- `atomic_decrement` gives a non-negative count (1543). -/
  | wDecPos {s t off v} : s.pc t = .wDec off v → 0 ≤ s.counter - 1 →
      Step unsync s none { s with counter := s.counter - 1, pc := update s.pc t (.wInc off v) }
  /-- wait for the list lock (1547). -/
  | wLock {s t off v} : s.pc t = .wLock off v → s.lock = none →
      Step unsync s none { s with lock := some t, pc := update s.pc t (.wUnlock off v) }
  /-- and release it (1548). -/
  | wUnlock {s t off v} : s.pc t = .wUnlock off v →
      Step unsync s none { s with lock := none, pc := update s.pc t (.wInc off v) }
  /-- `tlv_vector = get_tlv_vector()` (1568). -/
  | wLoad {s t off v a} : s.pc t = .wLoad off v → s.teb t = some a →
      Step unsync s none { s with pc := update s.pc t (.wStore off v a) }
  /-- `tlv_vector[offset] = nv` (1573). -/
  | wStore {s t off v a} : s.pc t = .wStore off v a →
      Step unsync s none
        { s with heap := update s.heap a { s.heap a with data := update (s.heap a).data off v },
                 pc := update s.pc t (.wDone off v) }
  /-- `atomic_decrement`, return (1576-1578). -/
  | wDone {s t off v} : s.pc t = .wDone off v →
      Step unsync s (some (.wrote t off v))
        { s with counter := s.counter - 1, pc := update s.pc t .idle }
  /-- a read is called: `tlv_vector = get_tlv_vector()` (1522). -/
  | rLoad {s t off a} : s.pc t = .idle → off ∈ s.handles → s.teb t = some a →
      Step unsync s none { s with pc := update s.pc t (.rRead off a) }
  /-- `value = tlv_vector[offset]`, return (1524-1528). -/
  | rRead {s t off a v} : s.pc t = .rRead off a → v = (s.heap a).data off →
      Step unsync s (some (.read t off v)) { s with pc := update s.pc t .idle }
  /-- an allocation is called and takes the list lock (1482). -/
  | aLock {s t v} : s.pc t = .idle → s.lock = none →
      Step unsync s none { s with lock := some t, pc := update s.pc t (.aOffset v) }
  /-- take an offset; the vectors are large enough (1485-1495). -/
  | aOffset {s t v} : s.pc t = .aOffset v → s.offset < (s.heap s.default).size + 2 →
      Step unsync s none
        { s with offset := s.offset + 1, pc := update s.pc t (.aDefault s.offset v) }
  /-- take an offset; the vectors must grow (1485-1496). -/
  | aGrow {s t v} : s.pc t = .aOffset v → (s.heap s.default).size + 2 ≤ s.offset →
      Step unsync s none
        { s with offset := s.offset + 1, pc := update s.pc t (.gEnter s.offset v) }
  /-- the spin on `atomic_cas(&tlv_writer_counter, TLV_GROW, 0)` succeeds (273). -/
  | gEnter {s t off v} : s.pc t = .gEnter off v → s.counter = 0 →
      Step unsync s none { s with counter := grow, pc := update s.pc t (.gDefault off v) }
  /-- grow the default vector to twice its size, and look at the list (276-281). -/
  | gDefault {s t off v filler} : s.pc t = .gDefault off v →
      Step unsync s none
        { s with heap := update s.heap s.next
                   ((s.heap s.default).copyTo ((s.heap s.default).size + (s.heap s.default).size) filler),
                 next := s.next + 1, default := s.next,
                 pc := update s.pc t (.gNext off v s.list) }
  /-- `grow_tlv_vector` copies the next thread's vector into a new one (283). -/
  | gCopy {s t off v u rest a filler} : s.pc t = .gNext off v (u :: rest) → s.teb u = some a →
      Step unsync s none
        { s with heap := update s.heap s.next ((s.heap a).copyTo (s.heap s.default).size filler),
                 next := s.next + 1, pc := update s.pc t (.gPublish off v u rest s.next) }
  /-- the new vector becomes the thread's vector (283-285). -/
  | gPublish {s t off v u rest n} : s.pc t = .gPublish off v u rest n →
      Step unsync s none
        { s with teb := update s.teb u (some n), pc := update s.pc t (.gNext off v rest) }
  /-- the spin on `atomic_cas(&tlv_writer_counter, 0, TLV_GROW)` succeeds (292). -/
  | gLeave {s t off v} : s.pc t = .gNext off v [] → s.counter = grow →
      Step unsync s none { s with counter := 0, pc := update s.pc t (.aDefault off v) }
  /-- put the default value into the default vector (1499), and look at the list (316). -/
  | aDefault {s t off v} : s.pc t = .aDefault off v →
      Step unsync s none
        { s with heap := update s.heap s.default
                   { s.heap s.default with data := update (s.heap s.default).data off v },
                 pc := update s.pc t (.aUpdate off v s.list) }
  /-- `update_tlv_vectors`, one list element (321-325). -/
  | aUpdate {s t off v u rest a} : s.pc t = .aUpdate off v (u :: rest) → s.teb u = some a →
      Step unsync s none
        { s with heap := update s.heap a { s.heap a with data := update (s.heap a).data off v },
                 pc := update s.pc t (.aUpdate off v rest) }
  /-- the end of the list. -/
  | aEnd {s t off v} : s.pc t = .aUpdate off v [] →
      Step unsync s none { s with pc := update s.pc t (.aUnlock off v) }
  /-- unlock and return the offset (1505-1508). -/
  | aUnlock {s t off v} : s.pc t = .aUnlock off v →
      Step unsync s (some (.allocated t off v))
        { s with lock := none, handles := off :: s.handles, pc := update s.pc t .idle }

/-- All executions of the threads `T`. -/
abbrev Exec (unsync : Bool) : List (Event T V) → State T V → Prop := Run (init T V) (Step unsync)

end Verif.Threads.Tlv
