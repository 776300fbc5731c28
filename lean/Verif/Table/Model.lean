/-
Model of Dylan hash tables: /repo/sources/dylan/table.dylan, used by one thread.

Open addressing in a vector of a prime number of entries, with deletion marks, growth by copying,
and rehashing (in place, or into a copy while an iteration is in progress) when the collector may
have moved objects whose address was hashed.

Time.  The collector may run between any two steps and change address-based hash codes.  Its runs
only matter relative to the computation of hash codes and to the tests for staleness, so the model
has a clock that ticks at each of those; `World.hash t` is the hash function at time `t` and is an
arbitrary function of time.  A dependency `(k, t)` says that `k` was hashed at time `t`.  A hash
state is a list of dependencies.  `is-stale?` must answer true when one of them has changed since
(that is what the memory manager's location dependencies provide), and may answer true without
cause (`World.spur`).

Simplifications, common to the whole file:
* tables with values (`values? = #t`), not weak, `*rehash-table-vectors-in-place?*` at its
  default `#t`; one thread, so locks, sequence points, the tests of a vector's identity under its
  lock and the thread's hash state are left out;
* the key vector and the value vector, indexed alike, are one vector of slots;
* `$grow-threshold` 0.75 is exact (the code uses single floats, exact below 2^22 entries);
* integers are unbounded; the saturation of `iteration-state-references` is left out;
* an error in a user's hash, test or growth function is not modelled.
-/
import Mathlib.Data.List.Basic
import Mathlib.Logic.Function.Basic

namespace Verif.Table

/-- An entry: empty, deleted, or a key with its value (`table.dylan:375-425`).  The value part of a
    deleted entry is the deletion mark (`none`), unless an iteration has stored into it since. -/
inductive Slot (K V : Type) where
  | empty
  | deleted (v : Option V)
  | full (k : K) (v : V)

/-- The key test, the hash code of each key at each time, and the times at which `is-stale?`
    answers true without cause. -/
structure World (K : Type) where
  eq : K → K → Bool
  hash : Nat → K → Int
  spur : Nat → Bool

/-- `<table-vector>` (`table.dylan:337-359`).  `rehashing` is the flag of the rehash token
    (`table.dylan:241-243`), `token` its identity. -/
structure TV (K V : Type) where
  count : Nat
  slots : Nat → Slot K V
  additions : Nat
  deletions : Nat
  deps : List (K × Nat)
  refs : Nat
  token : Nat
  rehashing : Bool

/-- `<table>` (`table.dylan:1052-1066`).  Iterations in progress may still refer to table vectors
    that have been replaced, so all the table's vectors are kept, in order of creation; `cur` is
    the number of the current one. -/
structure Tab (K V : Type) where
  vecs : Nat → TV K V
  cur : Nat
  initial : Int
  grow : Int → Int

/-- `table-vector(table)`. -/
def Tab.tv {K V : Type} (T : Tab K V) : TV K V := T.vecs T.cur

/-- Modify the `n`-th table vector. -/
def Tab.modify {K V : Type} (T : Tab K V) (n : Nat) (f : TV K V → TV K V) : Tab K V :=
  { T with vecs := Function.update T.vecs n (f (T.vecs n)) }

/-- Install a new table vector. -/
def Tab.push {K V : Type} (T : Tab K V) (tv : TV K V) : Tab K V :=
  { T with vecs := Function.update T.vecs (T.cur + 1) tv, cur := T.cur + 1 }

/-- Outcome of an operation: a result; the error of `compute-entry-count`, with the table it leaves
    behind and the time; a search that never ends; or an operation that has not ended within the
    given number of attempts. -/
inductive Res (K V α : Type) where
  | ok (a : α)
  | tooLarge (t : Tab K V) (now : Nat)
  | diverge
  | running

/-- Go on with the result of an operation. -/
def Res.bind {K V α β : Type} (r : Res K V α) (f : α → Res K V β) : Res K V β :=
  match r with
  | .ok a => f a
  | .tooLarge t now => .tooLarge t now
  | .diverge => .diverge
  | .running => .running

/-! ### sizes -/

/-- `$entry-counts` (`table.dylan:39-60`). -/
def entryCounts : List Nat :=
  [2, 3, 5, 7, 11, 17, 23, 29, 37, 47, 59, 79, 101, 127, 163, 211, 269, 337, 431, 541, 677, 853,
   1069, 1361, 1709, 2137, 2677, 3347, 4201, 5261, 6577, 8231, 10289, 12889, 16127, 20161, 25219,
   31531, 39419, 49277, 61603, 77017, 96281, 120371, 150473, 188107, 235159, 293957, 367453,
   459317, 574157, 717697, 897133, 1121423, 1401791, 1752239, 2190299, 2737937, 3422429, 4278037,
   5347553, 6684443, 8355563, 10444457, 13055587, 16319519, 20399411, 25499291, 31874149,
   39842687, 49803361, 62254207, 77817767, 97272239, 121590311, 151987889, 189984863, 237481091,
   296851369, 371064217, 463830313]

/-- The local method `loop` of `search-for-entry-count` (`table.dylan:71-88`): binary search.
    `fuel` bounds the number of halvings. -/
def searchLoop (needed : Int) : Nat → Nat → Nat → Nat
  | 0, lower, _ => entryCounts.getD lower 0
  | fuel + 1, lower, upper =>
    if lower = upper then entryCounts.getD lower 0
    else
      let index := (lower + upper) / 2
      if (entryCounts.getD index 0 : Int) < needed then searchLoop needed fuel (index + 1) upper
      else searchLoop needed fuel lower index

/-- `search-for-entry-count` (`table.dylan:68-90`). -/
def searchForEntryCount (needed : Int) : Nat := searchLoop needed 81 0 (entryCounts.length - 1)

/-- `ceiling/(desired, $grow-threshold)`. -/
def ceilThreshold (desired : Int) : Int := -((-(4 * desired)) / 3)

/-- `compute-entry-count` (`table.dylan:94-110`), `$minimum-entries` is 31; `none` is the error. -/
def computeEntryCount (desired : Int) : Option Nat :=
  let d := if desired < 0 then 0 else desired
  let needed := max (ceilThreshold d) 31
  if needed ≤ entryCounts.getD (entryCounts.length - 1) 0 then some (searchForEntryCount needed)
  else none

/-- `additions-limit`: `ceiling(count * $grow-threshold)` (`table.dylan:569`). -/
def limitOf (count : Nat) : Nat := (3 * count + 3) / 4

/-- `make-table-vector` (`table.dylan:555-572`) with the given number of entries. -/
def mkTV {K V : Type} (count : Nat) : TV K V where
  count := count
  slots := fun _ => .empty
  additions := 0
  deletions := 0
  deps := []
  refs := 0
  token := 0
  rehashing := false

section
variable {K V : Type} (W : World K)

/-- `make(<table>, size: initial, grow-size-function: grow)`: `initialize`
    (`table.dylan:1106-1113`). -/
def make (initial : Int) (grow : Int → Int) : Option (Tab K V) :=
  (computeEntryCount initial).map fun c => { vecs := fun _ => mkTV c, cur := 0, initial, grow }

/-- `default-grow-size` (`table.dylan:1010-1014`). -/
def defaultGrow (old : Int) : Int := old * 2

/-- `full?` (`table.dylan:455-458`). -/
def isFull (tv : TV K V) : Bool := decide (tv.additions ≥ limitOf tv.count)

/-! ### probing -/

/-- `$secondary-strides` (`table.dylan:646-647`). -/
def strides : List Nat := [5, 7, 11, 13, 17, 19, 23, 29]

/-- `primary-index` (`table.dylan:651-663`). -/
def primaryIndex (id : Int) (count : Nat) : Nat := (id % (count : Int)).toNat

/-- `secondary-stride` (`table.dylan:667-670`); `logand(id, 7)` is the remainder modulo 8. -/
def secondaryStride (id : Int) : Nat := strides.getD (id % 8).toNat 5

/-- The local method `next-index` of the searches (`table.dylan:702-708,752-757`). -/
def nextIndex (count stride index : Nat) : Nat :=
  if (index : Int) - stride < 0 then ((index : Int) - stride + count).toNat else index - stride

/-- The loop of `do-search` and `find-rehash-insertion-point` (`table.dylan:687-724,739-770`):
    the first index of the probe sequence at which to stop.  After `count` probes the sequence
    repeats itself, so `none` (fuel `count` used up) stands for a search that never ends. -/
def probe (stop : Nat → Bool) (count stride : Nat) : Nat → Nat → Option Nat
  | 0, _ => none
  | fuel + 1, index =>
    if stop index then some index else probe stop count stride fuel (nextIndex count stride index)

/-- The stopping condition of `do-search`: an empty entry, or one that is not deleted and whose
    key matches (`table.dylan:694-697,713-715`). -/
def searchStop (slots : Nat → Slot K V) (key : K) (i : Nat) : Bool :=
  match slots i with
  | .empty => true
  | .deleted _ => false
  | .full k _ => W.eq key k

/-- `search` (`table.dylan:726-737`). -/
def search (count : Nat) (slots : Nat → Slot K V) (key : K) (id : Int) : Option Nat :=
  probe (searchStop W slots key) count (secondaryStride id) count (primaryIndex id count)

/-- The stopping condition of `find-rehash-insertion-point`: an empty or deleted entry, or one
    not yet rehashed (`table.dylan:745-747,761-763`). -/
def insertStop (slots : Nat → Slot K V) (bits : Nat → Bool) (i : Nat) : Bool :=
  match slots i with
  | .empty => true
  | .deleted _ => true
  | .full _ _ => !bits i

/-- `find-rehash-insertion-point` (`table.dylan:739-771`). -/
def insertionPoint (count : Nat) (slots : Nat → Slot K V) (bits : Nat → Bool) (id : Int) :
    Option Nat :=
  probe (insertStop slots bits) count (secondaryStride id) count (primaryIndex id count)

/-! ### staleness -/

/-- Has the hash code of the key differed from that at time `s` at some time up to `now`? -/
def moved (now : Nat) (k : K) (s : Nat) : Bool :=
  (List.range (now + 1)).any fun u => decide (s ≤ u) && decide (W.hash u k ≠ W.hash s k)

/-- `is-stale?` (`hashing.dylan:37-39`, `mps_ld_isstale`). -/
def isStale (now : Nat) (deps : List (K × Nat)) : Bool :=
  (deps.any fun d => moved W now d.1 d.2) || W.spur now

/-- `needs-rehash?` (`table.dylan:460-464`). -/
def needsRehash (now : Nat) (tv : TV K V) : Bool := tv.rehashing || isStale W now tv.deps

/-! ### rehashing -/

/-- What the rehash loops carry along. -/
structure Work (K V : Type) where
  slots : Nat → Slot K V
  bits : Nat → Bool
  deps : List (K × Nat)
  cnt : Nat
  now : Nat

/-- The loop of `rehash-into-copy` (`table.dylan:854-884`), over source indices below `n`, from
    the highest down.  `none`: a search that never ends. -/
def copyLoop (src : Nat → Slot K V) (dcount : Nat) : Nat → Work K V → Option (Work K V)
  | 0, w => some w
  | n + 1, w =>
    match src n with
    | .full k v =>
      match search W dcount w.slots k (W.hash w.now k) with
      | none => none
      | some j => copyLoop src dcount n
          { slots := Function.update w.slots j (.full k v), bits := w.bits,
            deps := (k, w.now) :: w.deps, cnt := w.cnt + 1, now := w.now + 1 }
    | _ => copyLoop src dcount n w

/-- The local method `storenext` of `rehash-in-place` (`table.dylan:912-924`): store the entry in
    hand and go on with the one it displaces. -/
def storeNext (count : Nat) : Nat → Slot K V → Work K V → Option (Work K V)
  | 0, _, _ => none
  | fuel + 1, .full k v, w =>
    match insertionPoint count w.slots w.bits (W.hash w.now k) with
    | none => none
    | some j => storeNext count fuel (w.slots j)
        { slots := Function.update w.slots j (.full k v), bits := Function.update w.bits j true,
          deps := (k, w.now) :: w.deps, cnt := w.cnt + 1, now := w.now + 1 }
  | _ + 1, _, w => some w

/-- The loop of `rehash-in-place` (`table.dylan:901-928`), over indices below `n`, from the highest
    down. -/
def inPlaceLoop (count : Nat) : Nat → Work K V → Option (Work K V)
  | 0, w => some w
  | n + 1, w =>
    if w.bits n then inPlaceLoop count n w
    else
      match storeNext W count (count + 1) (w.slots n)
        { w with slots := Function.update w.slots n .empty } with
      | none => none
      | some w' => inPlaceLoop count n w'

/-- `rehash-entry-count` (`table.dylan:985-1007`); `$minimum-growth-amount` is 14. -/
def rehashEntryCount (T : Tab K V) (grow : Bool) : Int :=
  let present : Int := (T.tv.additions : Int) - T.tv.deletions
  if !grow || decide ((limitOf T.tv.count : Int) > present) then max T.initial present
  else max (present + 14) (T.grow present)

/-- `mark-rehashing` (`table.dylan:841-846`). -/
def mark (tv : TV K V) : TV K V := { tv with rehashing := true }

/-- `rehash-in-place` (`table.dylan:887-960`). -/
def rehashInPlace (now : Nat) (T : Tab K V) : Res K V (Tab K V × Nat) :=
  match inPlaceLoop W T.tv.count T.tv.count
    { slots := T.tv.slots, bits := fun _ => false, deps := [], cnt := 0, now } with
  | none => .diverge
  | some w => .ok (T.modify T.cur fun tv => { tv with
      slots := w.slots, additions := w.cnt, deletions := 0, deps := w.deps
      token := tv.token + 1, rehashing := false }, w.now)

/-- `rehash-into-copy` (`table.dylan:848-885`) into a new vector with `c` entries; the old one has
    been marked. -/
def rehashIntoCopy (now : Nat) (T : Tab K V) (c : Nat) : Res K V (Tab K V × Nat) :=
  match copyLoop W T.tv.slots c T.tv.count
    { slots := fun _ => .empty, bits := fun _ => false, deps := [], cnt := 0, now } with
  | none => .diverge
  | some w => .ok ((T.modify T.cur mark).push
      { (mkTV c : TV K V) with slots := w.slots, additions := w.cnt, deps := w.deps }, w.now)

/-- `rehash-table` (`table.dylan:819-838`): mark the token, then rehash in place or into a copy.
    Returns the table and the time. -/
def rehashTable (now : Nat) (T : Tab K V) (grow : Bool) : Res K V (Tab K V × Nat) :=
  if !grow && decide (T.tv.refs = 0) then rehashInPlace W now T
  else
    match computeEntryCount (rehashEntryCount T grow) with
    | none => .tooLarge (T.modify T.cur mark) now
    | some c => rehashIntoCopy W now T c

/-! ### operations -/

/-- `gethash` (`table.dylan:1133-1173`), with `fuel` attempts; the result is the value found, or
    `none` where the default is returned or the error signalled. -/
def gethash : Nat → Nat → Tab K V → K → Res K V (Option V × Tab K V × Nat)
  | 0, _, _, _ => .running
  | fuel + 1, now, T, key =>
    match search W T.tv.count T.tv.slots key (W.hash now key) with
    | none => .diverge
    | some i =>
      match T.tv.slots i with
      | .full _ v =>
        if T.tv.rehashing then gethash fuel (now + 1) T key else .ok (some v, T, now + 1)
      | .deleted _ => gethash fuel (now + 1) T key
      | .empty =>
        if needsRehash W (now + 1) T.tv then
          (rehashTable W (now + 2) T false).bind fun r => gethash fuel r.2 r.1 key
        else .ok (none, T, now + 2)

/-- Merge the hash state of a key hashed now (`table.dylan:1236`). -/
def addDep (key : K) (now : Nat) (tv : TV K V) : TV K V :=
  { tv with deps := (key, now) :: tv.deps }

/-- Store a new entry (`table.dylan:1265-1271`). -/
def addEntry (i : Nat) (key : K) (v : V) (tv : TV K V) : TV K V :=
  { tv with additions := tv.additions + 1, slots := Function.update tv.slots i (.full key v) }

/-- Store into the value part of the entry with key `k` (`table.dylan:1219`). -/
def setEntry (i : Nat) (k : K) (v : V) (tv : TV K V) : TV K V :=
  { tv with slots := Function.update tv.slots i (.full k v) }

/-- Mark an entry as deleted (`table.dylan:1373-1376`). -/
def remEntry (i : Nat) (tv : TV K V) : TV K V :=
  { tv with slots := Function.update tv.slots i (.deleted none), deletions := tv.deletions + 1 }

/-- `try-to-puthash-new` (`table.dylan:1227-1276`): merge the hash state, then store the new entry
    if possible. -/
def putNew (now : Nat) (T : Tab K V) (i : Nat) (key : K) (v : V) : Bool × Tab K V :=
  let T' : Tab K V := T.modify T.cur (addDep key now)
  if !isFull T'.tv && !T'.tv.rehashing && !isStale W (now + 1) T'.tv.deps then
    (true, T'.modify T'.cur (addEntry i key v))
  else (false, T')

/-- `try-to-puthash-old` (`table.dylan:1203-1225`): replace the value of an entry. -/
def putOld (T : Tab K V) (i : Nat) (k : K) (v : V) : Bool × Tab K V :=
  if !T.tv.rehashing then
    (true, T.modify T.cur (setEntry i k v))
  else (false, T)

/-- The store failed: rehash if needed (`table.dylan:1319-1324`). -/
def putRetry (now : Nat) (T : Tab K V) : Res K V (Tab K V × Nat) :=
  if needsRehash W now T.tv then rehashTable W (now + 1) T (isFull T.tv)
  else if isFull T.tv then rehashTable W (now + 1) T true
  else .ok (T, now + 1)

/-- The attempt of `puthash` to store (`table.dylan:1311-1317`). -/
def putTry (now : Nat) (T : Tab K V) (i : Nat) (key : K) (v : V) : Bool × Tab K V :=
  match T.tv.slots i with
  | .empty => putNew W now T i key v
  | .full k _ => putOld T i k v
  | .deleted _ => (false, T)

/-- `puthash` (`table.dylan:1303-1328`). -/
def puthash : Nat → Nat → Tab K V → K → V → Res K V (Tab K V × Nat)
  | 0, _, _, _, _ => .running
  | fuel + 1, now, T, key, v =>
    match search W T.tv.count T.tv.slots key (W.hash now key) with
    | none => .diverge
    | some i =>
      if (putTry W now T i key v).1 then .ok ((putTry W now T i key v).2, now + 2)
      else (putRetry W (now + 2) (putTry W now T i key v).2).bind fun s =>
        puthash fuel s.2 s.1 key v

/-- `try-to-remhash` (`table.dylan:1346-1381`). -/
def tryRem (T : Tab K V) (i : Nat) : Bool × Tab K V :=
  if !T.tv.rehashing then
    (true, T.modify T.cur (remEntry i))
  else (false, T)

/-- Was an entry found (`table.dylan:1392`)? -/
def isFound : Slot K V → Bool
  | .empty => false
  | _ => true

/-- The attempt of `remove-key!` to remove the entry found (`table.dylan:1392-1394,1372-1373`). -/
def remTry (T : Tab K V) (i : Nat) : Bool × Tab K V :=
  match T.tv.slots i with
  | .full _ _ => tryRem T i
  | _ => (false, T)

/-- `remove-key!` (`table.dylan:1383-1408`). -/
def removeKey : Nat → Nat → Tab K V → K → Res K V (Bool × Tab K V × Nat)
  | 0, _, _, _ => .running
  | fuel + 1, now, T, key =>
    match search W T.tv.count T.tv.slots key (W.hash now key) with
    | none => .diverge
    | some i =>
      if (remTry T i).1 then .ok (true, (remTry T i).2, now + 1)
      else if needsRehash W (now + 1) T.tv then
        (rehashTable W (now + 2) T false).bind fun s => removeKey fuel s.2 s.1 key
      else if isFound (T.tv.slots i) then removeKey fuel (now + 2) T key
      else .ok (false, T, now + 2)

/-- `clear-table-vector!` (`table.dylan:776-792`). -/
def clearTV (tv : TV K V) : TV K V :=
  { tv with slots := fun _ => .empty, additions := 0, deletions := 0, deps := []
            token := tv.token + 1, rehashing := false }

/-- `remove-all-keys!` (`table.dylan:1413-1444`). -/
def removeAll (now : Nat) (T : Tab K V) : Res K V (Tab K V) :=
  if T.tv.additions = 0 then .ok T
  else if T.tv.refs = 0 then .ok (T.modify T.cur clearTV)
  else match computeEntryCount T.initial with
    | none => .tooLarge T now
    | some c => .ok ((T.modify T.cur mark).push (mkTV c))

/-- `size` (`table.dylan:1123-1129`). -/
def size (T : Tab K V) : Int := (T.tv.additions : Int) - T.tv.deletions

/-! ### iteration -/

/-- `<iteration-state>` (`table.dylan:1519-1534`): the number of the table vector, the token seen
    at the start, the index (`none` when exhausted) and the current key.  The three slots used for
    weak tables are left out. -/
structure Iter (K : Type) where
  source : Nat
  token : Nat
  index : Option Nat
  key : Option K

/-- `table-current-key` (`table.dylan:1600-1608`); `none` when exhausted (an error). -/
def Iter.current (it : Iter K) : Option K := it.index.bind fun _ => it.key

/-- The local method `loop` of `table-next-state` (`table.dylan:1558-1574`): the highest index
    below `n` whose entry is neither empty nor deleted, with its key. -/
def prevFull (slots : Nat → Slot K V) : Nat → Option (Nat × K)
  | 0 => none
  | n + 1 => match slots n with
    | .full k _ => some (n, k)
    | _ => prevFull slots n

/-- `increment-iteration-state-references` (`table.dylan:468-473`). -/
def incRefs (tv : TV K V) : TV K V := { tv with refs := tv.refs + 1 }

/-- `decrement-iteration-state-references` (`table.dylan:475-480`). -/
def decRefs (tv : TV K V) : TV K V := { tv with refs := tv.refs - 1 }

/-- `table-next-state` (`table.dylan:1552-1578`). -/
def nextState (T : Tab K V) (it : Iter K) : Tab K V × Iter K :=
  match it.index with
  | none => (T, it)
  | some i => match prevFull (T.vecs it.source).slots i with
    | some (j, k) => (T, { it with index := some j, key := some k })
    | none => (T.modify it.source decRefs, { it with index := none })

/-- `make-initial-state` (`table.dylan:1700-1725`). -/
def initialState : Nat → Nat → Tab K V → Res K V (Iter K × Tab K V × Nat)
  | 0, _, _ => .running
  | fuel + 1, now, T =>
    if needsRehash W now T.tv then
      (rehashTable W (now + 1) T false).bind fun r => initialState fuel r.2 r.1
    else
      let r := nextState (T.modify T.cur incRefs)
        { source := T.cur, token := T.tv.token, index := some T.tv.count, key := none }
      .ok (r.2, r.1, now + 1)

/-- `rehash-token-valid?(tv, token(state))` (`table.dylan:253-257`) for the vector of an
    iteration. -/
def tokenValid (T : Tab K V) (it : Iter K) : Bool :=
  !(T.vecs it.source).rehashing && decide ((T.vecs it.source).token = it.token)

/-- `table-current-element` (`table.dylan:1610-1647`); `none` is an error: an exhausted state or
    a current element that has been removed. -/
def currentElement (fuel now : Nat) (T : Tab K V) (it : Iter K) :
    Res K V (Option V × Tab K V × Nat) :=
  match it.index, it.key with
  | some i, some key =>
    match (T.vecs it.source).slots i with
    | .full _ v =>
      if tokenValid T it then .ok (some v, T, now)
      else (gethash W fuel now T key).bind fun r => .ok (some (r.1.getD v), r.2)
    | .deleted (some v) =>
      (gethash W fuel now T key).bind fun r => .ok (some (r.1.getD v), r.2)
    | _ => .ok (none, T, now)
  | _, _ => .ok (none, T, now)

/-- Store into the value part of an entry. -/
def setValue (v : V) : Slot K V → Slot K V
  | .empty => .empty
  | .deleted _ => .deleted (some v)
  | .full k _ => .full k v

/-- Is the entry deleted? -/
def isDeleted : Slot K V → Bool
  | .deleted _ => true
  | _ => false

/-- Store into the value part of entry `i` (`table.dylan:1662`). -/
def storeValue (i : Nat) (v : V) (tv : TV K V) : TV K V :=
  { tv with slots := Function.update tv.slots i (setValue v (tv.slots i)) }

/-- `table-current-element-setter` (`table.dylan:1649-1683`); `false` is the error for an exhausted
    state. -/
def setCurrentElement (fuel now : Nat) (T : Tab K V) (it : Iter K) (v : V) :
    Res K V (Bool × Tab K V × Nat) :=
  match it.index, it.key with
  | some i, some key =>
    let T' : Tab K V := T.modify it.source (storeValue i v)
    if isDeleted ((T'.vecs it.source).slots i) || !tokenValid T' it then
      (puthash W fuel now T' key v).bind fun r => .ok (true, r)
    else .ok (true, T', now)
  | _, _ => .ok (false, T, now)

/-- `table-copy-state` (`table.dylan:1685-1698`): the copy is the same state. -/
def copyState (T : Tab K V) (it : Iter K) : Tab K V × Iter K := (T.modify it.source incRefs, it)

/-! ### histories -/

/-- What a program does with a table: the operations, and those of the iteration protocol, whose
    iterations are numbered in the order of their creation. -/
inductive Op (K V : Type) where
  | get (k : K)
  | put (k : K) (v : V)
  | remove (k : K)
  | clear
  | size
  | iterStart
  | iterNext (n : Nat)
  | iterCopy (n : Nat)
  | iterElem (n : Nat)
  | iterSet (n : Nat) (v : V)

/-- What the program sees: `cursor` is the current key of the iteration after the operation,
    `exhausted` the error for a finished iteration or a removed element, `tooLarge` the error of
    `compute-entry-count`, `unknown` an iteration that has not been created. -/
inductive Obs (K V : Type) where
  | found (v : Option V)
  | done
  | removed (b : Bool)
  | size (n : Int)
  | cursor (k : Option K)
  | elem (v : V)
  | exhausted
  | tooLarge
  | unknown

/-- The table, the time and the iterations created so far. -/
structure St (K V : Type) where
  T : Tab K V
  now : Nat
  its : List (Iter K)

/-- Outcome of a step of a history. -/
inductive Out (K V α : Type) where
  | ok (a : α)
  | diverge
  | running

/-- Turn the outcome of an operation into that of a step: an error leaves the iterations alone. -/
def Res.out {α : Type} (r : Res K V α) (s : St K V) (f : α → Obs K V × St K V) :
    Out K V (Obs K V × St K V) :=
  match r with
  | .ok a => .ok (f a)
  | .tooLarge T now => .ok (.tooLarge, { s with T, now })
  | .diverge => .diverge
  | .running => .running

/-- What the program sees of `current-element`. -/
def elemObs : Option V → Obs K V
  | some v => .elem v
  | none => .exhausted

/-- One operation. -/
def step (fuel : Nat) (s : St K V) : Op K V → Out K V (Obs K V × St K V)
  | .get k => (gethash W fuel s.now s.T k).out s fun r =>
      (.found r.1, { s with T := r.2.1, now := r.2.2 })
  | .put k v => (puthash W fuel s.now s.T k v).out s fun r =>
      (.done, { s with T := r.1, now := r.2 })
  | .remove k => (removeKey W fuel s.now s.T k).out s fun r =>
      (.removed r.1, { s with T := r.2.1, now := r.2.2 })
  | .clear => (removeAll s.now s.T).out s fun T => (.done, { s with T })
  | .size => .ok (.size (size s.T), s)
  | .iterStart => (initialState W fuel s.now s.T).out s fun r =>
      (.cursor r.1.current, { T := r.2.1, now := r.2.2, its := s.its ++ [r.1] })
  | .iterNext n => match s.its[n]? with
    | none => .ok (.unknown, s)
    | some it => .ok (.cursor (nextState s.T it).2.current,
        { s with T := (nextState s.T it).1, its := s.its.set n (nextState s.T it).2 })
  | .iterCopy n => match s.its[n]? with
    | none => .ok (.unknown, s)
    | some it => .ok (.cursor it.current,
        { s with T := (copyState s.T it).1, its := s.its ++ [(copyState s.T it).2] })
  | .iterElem n => match s.its[n]? with
    | none => .ok (.unknown, s)
    | some it => (currentElement W fuel s.now s.T it).out s fun r =>
        (elemObs r.1, { s with T := r.2.1, now := r.2.2 })
  | .iterSet n v => match s.its[n]? with
    | none => .ok (.unknown, s)
    | some it => (setCurrentElement W fuel s.now s.T it v).out s fun r =>
        (if r.1 then .done else .exhausted, { s with T := r.2.1, now := r.2.2 })

/-- A history: the observations and the final state. -/
def run (fuel : Nat) : St K V → List (Op K V) → Out K V (List (Obs K V) × St K V)
  | s, [] => .ok ([], s)
  | s, op :: ops => match step W fuel s op with
    | .ok (o, s') => match run fuel s' ops with
      | .ok (os, s'') => .ok (o :: os, s'')
      | .diverge => .diverge
      | .running => .running
    | .diverge => .diverge
    | .running => .running

end
end Verif.Table
