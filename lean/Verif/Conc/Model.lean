/-
Model of Dylan hash tables used by several threads at once: /repo/sources/dylan/table.dylan and
/repo/sources/dylan/symbol-table.dylan.

Readers take no lock.  They fetch the current table vector and its rehash token, probe the vector
while others change it, and at the end test that the token is still valid.  Writers probe in the same
way and then take the lock of the table for the store; so does rehashing, which invalidates the token
before it moves entries.

Every step of the model is one access to memory that other threads may see (or one call of the hash
function, since the collector may move objects between any two accesses), and steps of different
threads interleave arbitrarily.  Some accesses go into one step:
* taking the lock goes with the first access under the lock, and releasing it with the last;
* what only the holder of the lock reads or writes (`deletions`, `rehashed-bits`, a table vector
  that is not installed yet, the holder's reads of what only holders write) goes with the next access
  others can see; so does the update of `additions`, which `full?` reads without the lock, where its
  value only decides about growing;
* a read of a vector's size or test function, which never change.

Simplifications: memory is sequentially consistent (the code has `sequence-point` and
`synchronize-side-effects` where it needs an order); tables are not weak; iterations are left out,
except that `iteration-state-references` may be nonzero whenever it is tested; errors in user
functions are not modelled.  Time, hash codes and staleness are as in `Verif.Table.Model`.
-/
import Verif.Table.Model
import Verif.Threads.Run

namespace Verif.Conc

open Verif.Table (World primaryIndex secondaryStride nextIndex probe isStale limitOf
  computeEntryCount)

/-- The key part of an entry (`table.dylan:378-395,417-422`). -/
inductive KeyS (K : Type) where
  | empty
  | deleted
  | key (k : K)
  deriving DecidableEq

/-- The value part of an entry (`table.dylan:397-422`): the markers are objects like others. -/
inductive ValS (V : Type) where
  | empty
  | deleted
  | val (v : V)
  deriving DecidableEq

/-- `<table-vector>` (`table.dylan:337-359`); `token` is the identity of its rehash token. -/
structure Vec (K V : Type) where
  count : Nat
  keys : Nat → KeyS K
  vals : Nat → ValS V
  additions : Nat
  deletions : Nat
  deps : List (K × Nat)
  token : Nat

/-- The memory: the table vectors made so far and their number, the current one
    (`table-vector(table)`), the `rehashing?` flags of the tokens and the number of tokens made so
    far, the holder of the lock (all vectors of a table share one, `table.dylan:833,1434`), and the
    time. -/
structure Mem (K V : Type) where
  vecs : Nat → Vec K V
  nv : Nat
  cur : Nat
  marked : Nat → Bool
  ntok : Nat
  lock : Option Nat
  now : Nat

/-- What a call does with its key: `element` with a default, `element-setter`, `remove-key!`,
    `gethash-or-set` (`%resolve-symbol`) and `make-symbol`. -/
inductive Kind (V : Type) where
  | get
  | put (v : V)
  | remove
  | intern (v : V)
  | symbol (v : V)
  deriving DecidableEq

/-- A call. -/
inductive Op (K V : Type) where
  | on (kind : Kind V) (key : K)
  | removeAll
  deriving DecidableEq

/-- A result: a value; the marker `$table-entry-empty`; the default or the error for a missing key;
    a value stored; whether there was a key to remove; all keys removed; the error of
    `compute-entry-count`. -/
inductive Out (V : Type) where
  | value (v : V)
  | marker
  | missing
  | stored
  | removed (present : Bool)
  | cleared
  | tooLarge
  deriving DecidableEq

/-- A call starts or returns; calls are numbered. -/
inductive Event (K V : Type) where
  | call (id : Nat) (op : Op K V)
  | ret (id : Nat) (out : Out V)
  deriving DecidableEq

/-- A call with a key in progress: its number, what was called, how it goes on now, and the key. -/
structure Ctx (K V : Type) where
  id : Nat
  called : Kind V
  kind : Kind V
  key : K

/-- Why `needs-rehash?` is asked: the key has not been found (`gethash`, `remove-key!`); the key has
    been found, but not been removed; a store has failed; the first search of `make-symbol`, whose
    key was hashed at time `t`, has ended at entry `i`. -/
inductive Why where
  | absent
  | found
  | store
  | fresh (t i : Nat)

/-- What a rehash carries along: the entries of the new vector (copying), `rehashed-bits` (in
    place), the new hash state and the number of entries. -/
structure Work (K V : Type) where
  keys : Nat → KeyS K
  vals : Nat → ValS V
  bits : Nat → Bool
  deps : List (K × Nat)
  cnt : Nat

/-- Where a thread is: each constructor names what the thread is about to do. -/
inductive Pc (K V : Type) where
  /-- no call in progress -/
  | idle
  /-- fetch `table-vector(table)` -/
  | start (c : Ctx K V)
  /-- fetch `rehash-token(tv)` -/
  | tv (c : Ctx K V) (n : Nat)
  /-- call the hash function -/
  | token (c : Ctx K V) (n tok : Nat)
  /-- fetch the key of entry `i`; `t` is when the key was hashed -/
  | probe (c : Ctx K V) (n tok t i : Nat)
  /-- the search has ended at an entry with the key -/
  | found (c : Ctx K V) (n tok i : Nat)
  /-- the search has ended at an empty entry and the key is to be stored there -/
  | missed (c : Ctx K V) (n tok t i : Nat)
  /-- the value has been fetched; test `rehashing?(token)` -/
  | value (c : Ctx K V) (n tok : Nat) (x : ValS V)
  /-- compare the token with `rehash-token(tv)` -/
  | value2 (c : Ctx K V) (n tok : Nat) (x : ValS V)
  /-- wait for the lock -/
  | wait (c : Ctx K V)
  /-- `needs-rehash?`: test `rehashing?(token)` -/
  | need1 (c : Ctx K V) (n tok : Nat) (w : Why)
  /-- `needs-rehash?`: compare the token with `rehash-token(tv)` -/
  | need2 (c : Ctx K V) (n tok : Nat) (w : Why)
  /-- `needs-rehash?`: test `is-stale?(hash-state(tv))` -/
  | need3 (c : Ctx K V) (n tok : Nat) (w : Why)
  /-- test `full?(tv)` after a failed store; `must`: a rehash is needed -/
  | full (c : Ctx K V) (n : Nat) (must : Bool)
  /-- lock and rehash the vector -/
  | rehash (c : Ctx K V) (n : Nat) (grow : Bool)
  /-- return -/
  | done (id : Nat) (out : Out V)
  /-- `try-to-puthash-new`: store the value -/
  | newVal (c : Ctx K V) (n t i : Nat)
  /-- `try-to-puthash-new`: store the key -/
  | newKey (c : Ctx K V) (n t i : Nat)
  /-- `try-to-remhash`: store the deletion mark as value -/
  | remVal (c : Ctx K V) (n i : Nat)
  /-- `rehash-in-place`: the entries from `i` on have been visited -/
  | ipLoop (c : Ctx K V) (n : Nat) (w : Work K V) (i : Nat)
  /-- `rehash-in-place`: clear the value of entry `i`, whose key has been cleared -/
  | ipClear (c : Ctx K V) (n : Nat) (w : Work K V) (i : Nat) (hk : KeyS K) (hv : ValS V)
  /-- `storenext` with an entry in hand -/
  | ipHand (c : Ctx K V) (n : Nat) (w : Work K V) (i : Nat) (hk : KeyS K) (hv : ValS V)
  /-- `storenext`: find the insertion point for the key hashed at time `t`, store the key -/
  | ipHashed (c : Ctx K V) (n : Nat) (w : Work K V) (i : Nat) (k : K) (hv : ValS V) (t : Nat)
  /-- `storenext`: store the value at `j`; `nk`, `nv` is the entry displaced -/
  | ipVal (c : Ctx K V) (n : Nat) (w : Work K V) (i j : Nat) (k : K) (hv : ValS V) (t : Nat)
      (nk : KeyS K) (nv : ValS V)
  /-- `rehash-in-place`: install a new token -/
  | ipToken (c : Ctx K V) (n : Nat)
  /-- `rehash-into-copy` with `dc` entries: the source entries from `i` on have been copied -/
  | cpLoop (c : Ctx K V) (n dc : Nat) (w : Work K V) (i : Nat)
  /-- `rehash-into-copy`: store the entry whose key was hashed at time `t` -/
  | cpHashed (c : Ctx K V) (n dc : Nat) (w : Work K V) (i : Nat) (k : K) (x : ValS V) (t : Nat)
  /-- `remove-all-keys!`: fetch the table vector -/
  | raStart (id : Nat)
  /-- `remove-all-keys!`: fetch `additions` -/
  | raAdds (id n : Nat)
  /-- `remove-all-keys!`: lock and clear the counters -/
  | raLock (id n : Nat)
  /-- `clear-table-vector!`: clear the keys from `i` on -/
  | raKeys (id n i : Nat)
  /-- `clear-table-vector!`: clear the values from `i` on -/
  | raVals (id n i : Nat)
  /-- `clear-table-vector!`: install a new token -/
  | raToken (id n : Nat)
  /-- `remove-all-keys!` with a new vector: fetch the current one -/
  | raNew (id : Nat)
  /-- `remove-all-keys!` with a new vector: lock and mark the current one -/
  | raSwap (id n : Nat)
  /-- `remove-all-keys!` with a new vector: install it -/
  | raInstall (id : Nat)

/-- A table and its threads: the memory, where each thread is, and the number of the next call. -/
structure State (K V : Type) where
  mem : Mem K V
  pc : Nat → Pc K V
  next : Nat

/-- What does not change: the key test, hash codes and staleness; `*rehash-table-vectors-in-place?*`
    (`table.dylan:795`); the initial size and the growth function of the table. -/
structure Cfg (K V : Type) where
  W : World K
  inPlace : Bool
  initial : Int
  grow : Int → Int

section
variable {K V : Type}

/-- Change the `n`-th table vector. -/
def Mem.modify (m : Mem K V) (n : Nat) (f : Vec K V → Vec K V) : Mem K V :=
  { m with vecs := Function.update m.vecs n (f (m.vecs n)) }

/-- `entry-key-setter` (`table.dylan:391-395`). -/
def Vec.setKey (i : Nat) (x : KeyS K) (v : Vec K V) : Vec K V :=
  { v with keys := Function.update v.keys i x }

/-- `entry-value-setter` (`table.dylan:410-414`). -/
def Vec.setVal (i : Nat) (x : ValS V) (v : Vec K V) : Vec K V :=
  { v with vals := Function.update v.vals i x }

/-- `make-table-vector` (`table.dylan:555-572`), with a new token. -/
def mkVec (count token : Nat) : Vec K V where
  count := count
  keys := fun _ => .empty
  vals := fun _ => .empty
  additions := 0
  deletions := 0
  deps := []
  token := token

/-- `rehash-token-valid?` (`table.dylan:253-257`), both tests at once: under the lock. -/
def Mem.valid (m : Mem K V) (n tok : Nat) : Bool :=
  !m.marked tok && decide ((m.vecs n).token = tok)

/-- `full?` (`table.dylan:455-458`). -/
def Vec.full (v : Vec K V) : Bool := decide (v.additions ≥ limitOf v.count)

/-- Does the search stop at a key (`table.dylan:694-697,713-715`)? -/
def stopAt (W : World K) (key : K) : KeyS K → Bool
  | .empty => true
  | .deleted => false
  | .key k => W.eq key k

/-- Does `find-rehash-insertion-point` stop at a key (`table.dylan:745-747,761-763`)? -/
def insertAt (bit : Bool) : KeyS K → Bool
  | .empty => true
  | .deleted => true
  | .key _ => !bit

/-- `rehash-entry-count` (`table.dylan:985-1007`); `$minimum-growth-amount` is 14. -/
def rehashCount (cfg : Cfg K V) (v : Vec K V) (grow : Bool) : Int :=
  let present : Int := (v.additions : Int) - v.deletions
  if !grow || decide ((limitOf v.count : Int) > present) then max cfg.initial present
  else max (present + 14) (cfg.grow present)

/-- Install a new table vector. -/
def Mem.install (m : Mem K V) (v : Vec K V) : Mem K V :=
  { m with vecs := Function.update m.vecs m.nv v, nv := m.nv + 1, cur := m.nv, ntok := m.ntok + 1 }

/-- `mark-rehashing` (`table.dylan:841-846`). -/
def Mem.mark (m : Mem K V) (n : Nat) : Mem K V :=
  { m with marked := Function.update m.marked (m.vecs n).token true }

/-- The result of a fetched value. -/
def ValS.out : ValS V → Out V
  | .val v => .value v
  | _ => .marker

/-- The result of a call that has not found its key (`table.dylan:1163-1169,1406`). -/
def absentOut : Kind V → Out V
  | .remove => .removed false
  | _ => .missing

/-- What to do after a search that ended at an empty entry: `gethash` (`table.dylan:1158`),
    `remove-key!` (`table.dylan:1397`), `puthash` (`table.dylan:1315`), `gethash-or-set`
    (`symbol-table.dylan:92`), `make-symbol` (`symbol-table.dylan:165`). -/
def afterMiss (c : Ctx K V) (n tok t i : Nat) : Pc K V :=
  match c.kind with
  | .get => .need1 c n tok .absent
  | .remove => .need1 c n tok .absent
  | .put _ => .missed c n tok t i
  | .intern _ => .missed c n tok t i
  | .symbol _ => .need1 c n tok (.fresh t i)

/-- What to do when the fetched value cannot be used: `gethash` (`table.dylan:1153-1157`) and
    `make-symbol` (`symbol-table.dylan:159-164`) wait for the lock and try again, `gethash-or-set`
    (`symbol-table.dylan:99-107`) asks whether to rehash. -/
def badValue (c : Ctx K V) (n tok : Nat) : Pc K V :=
  match c.kind with
  | .intern _ => .need1 c n tok .store
  | _ => .wait c

/-- A rehash is needed: `table.dylan:1161,1320,1398`, `symbol-table.dylan:101,168`. -/
def needYes (c : Ctx K V) (n : Nat) : Why → Pc K V
  | .store => .full c n true
  | _ => .rehash c n false

/-- No rehash is needed: `table.dylan:1163-1169,1321,1400-1406`, `symbol-table.dylan:102,170-176`. -/
def needNo (c : Ctx K V) (n tok : Nat) : Why → Pc K V
  | .absent => .done c.id (absentOut c.kind)
  | .found => .start c
  | .store => .full c n false
  | .fresh t i => .missed c n tok t i

/-- The value a call stores. -/
def Kind.stores : Kind V → Option V
  | .put v => some v
  | .intern v => some v
  | .symbol v => some v
  | _ => none

/-- The result of a call that has stored a new entry: `puthash` (`table.dylan:1316`),
    `gethash-or-set` (`symbol-table.dylan:97`), `make-symbol` (`symbol-table.dylan:174`). -/
def storedOut : Kind V → Out V
  | .intern v => .value v
  | .symbol v => .value v
  | _ => .stored

/-- The hash state after the merge in `try-to-puthash-new` (`table.dylan:1236`): `puthash` merges
    the state of the new key, hashed at time `t`; `gethash-or-set` and `make-symbol` pass the
    vector's own state. -/
def mergeDeps (c : Ctx K V) (t : Nat) (deps : List (K × Nat)) : List (K × Nat) :=
  match c.kind with
  | .put _ => (c.key, t) :: deps
  | _ => deps

/-- What to do when a new entry could not be stored: `puthash` (`table.dylan:1318-1325`) and
    `gethash-or-set` (`symbol-table.dylan:99-107`) ask whether to rehash, `make-symbol` goes on as
    `gethash-or-set` (`symbol-table.dylan:176`). -/
def newFailed (c : Ctx K V) (n tok : Nat) : Pc K V :=
  match c.kind with
  | .symbol v => .start { c with kind := .intern v }
  | _ => .need1 c n tok .store

/-- The step of a thread whose search has found the key at entry `i`: fetch the value (`gethash`
    `table.dylan:1148`, `gethash-or-set` `symbol-table.dylan:84`, `make-symbol`
    `symbol-table.dylan:154`), or store it (`try-to-puthash-old`, `table.dylan:1203-1225`), or mark
    the key as deleted (`try-to-remhash`, `table.dylan:1346-1374`). -/
def stepFound (p : Nat) (m : Mem K V) (c : Ctx K V) (n tok i : Nat) : Option (Mem K V × Pc K V) :=
  match c.kind with
  | .put v =>
    if m.lock = none then
      if m.valid n tok then some (m.modify n (Vec.setVal i (.val v)), .done c.id .stored)
      else some (m, .need1 c n tok .store)
    else none
  | .remove =>
    if m.lock = none then
      match (m.vecs n).keys i with
      | .deleted => some (m, .need1 c n tok .found)
      | _ =>
        if m.valid n tok then
          some ({ m.modify n (Vec.setKey i .deleted) with lock := some p }, .remVal c n i)
        else some (m, .need1 c n tok .found)
    else none
  | _ => some (m, .value c n tok ((m.vecs n).vals i))

/-- The tests of `try-to-puthash-new` (`table.dylan:1261-1264`), after the merge. -/
def canAdd (W : World K) (m : Mem K V) (n tok i : Nat) (deps : List (K × Nat)) : Bool :=
  (match (m.vecs n).keys i with | .empty => true | _ => false) && !(m.vecs n).full &&
    m.valid n tok && !isStale W m.now deps

/-- Lock, merge the hash state and test whether the new entry can be stored at `i`; then count it
    (`try-to-puthash-new`, `table.dylan:1227-1265`). -/
def stepMissed (W : World K) (p : Nat) (m : Mem K V) (c : Ctx K V) (n tok t i : Nat) :
    Option (Mem K V × Pc K V) :=
  if m.lock = none then
    let deps := mergeDeps c t (m.vecs n).deps
    if canAdd W m n tok i deps then
      some ({ m.modify n (fun v => { v with deps := deps, additions := v.additions + 1 }) with lock := some p },
        .newVal c n t i)
    else some (m.modify n (fun v => { v with deps := deps }), newFailed c n tok)
  else none

/-- Lock the vector and, if it is the current one, mark its token and begin to rehash
    (`rehash-table`, `table.dylan:819-838`).  `b` says that no iteration refers to the vector. -/
def stepRehash (cfg : Cfg K V) (p : Nat) (b : Bool) (m : Mem K V) (c : Ctx K V) (n : Nat)
    (grow : Bool) : Option (Mem K V × Pc K V) :=
  if m.lock = none then
    if n = m.cur then
      let w : Work K V := { keys := fun _ => .empty, vals := fun _ => .empty, bits := fun _ => false, deps := [], cnt := 0 }
      if !grow && cfg.inPlace && b then
        some ({ m.mark n with lock := some p }, .ipLoop c n w (m.vecs n).count)
      else
        match computeEntryCount (rehashCount cfg (m.vecs n) grow) with
        | none => some (m.mark n, .done c.id .tooLarge)
        | some dc => some ({ m.mark n with lock := some p }, .cpLoop c n dc w (m.vecs n).count)
    else some (m, .start c)
  else none

/-- Clear the key of the next entry that has not been rehashed (`table.dylan:901-911`); at the end,
    store the counters and the hash state (`table.dylan:955-957`). -/
def stepIpLoop (m : Mem K V) (c : Ctx K V) (n : Nat) (w : Work K V) : Nat → Mem K V × Pc K V
  | 0 => (m.modify n (fun v => { v with additions := w.cnt, deletions := 0, deps := w.deps }),
      .ipToken c n)
  | i + 1 =>
    if w.bits i then (m, .ipLoop c n w i)
    else (m.modify n (Vec.setKey i .empty),
      .ipClear c n w i ((m.vecs n).keys i) ((m.vecs n).vals i))

/-- Go on with the next source entry (`table.dylan:864-883`); at the end, install the new vector
    (`table.dylan:855-863`). -/
def stepCpLoop (m : Mem K V) (c : Ctx K V) (n dc : Nat) (w : Work K V) : Nat → Mem K V × Pc K V
  | 0 => ({ m.install { count := dc, keys := w.keys, vals := w.vals, additions := w.cnt, deletions := 0, deps := w.deps, token := m.ntok } with lock := none },
      .start c)
  | i + 1 =>
    match (m.vecs n).keys i with
    | .key k => ({ m with now := m.now + 1 }, .cpHashed c n dc w i k ((m.vecs n).vals i) m.now)
    | _ => (m, .cpLoop c n dc w i)

/-- One step of thread `p` within a call.  `none`: the thread waits for the lock, or is in a search
    that never ends, or has no call in progress.  `b` is the answer to the question whether no
    iteration refers to the vector. -/
def step1 (cfg : Cfg K V) (p : Nat) (b : Bool) (m : Mem K V) : Pc K V → Option (Mem K V × Pc K V)
  | .idle => none
  | .done _ _ => none
  -- `table.dylan:1136,1305,1387`, `symbol-table.dylan:70,139`
  | .start c => some (m, .tv c m.cur)
  -- `table.dylan:1137`
  | .tv c n => some (m, .token c n (m.vecs n).token)
  -- `table.dylan:1141,691`
  | .token c n tok => some ({ m with now := m.now + 1 },
      .probe c n tok m.now (primaryIndex (cfg.W.hash m.now c.key) (m.vecs n).count))
  -- `do-search`, `table.dylan:687-724`
  | .probe c n tok t i =>
    match (m.vecs n).keys i with
    | .empty => some (m, afterMiss c n tok t i)
    | .deleted => some (m, .probe c n tok t
        (nextIndex (m.vecs n).count (secondaryStride (cfg.W.hash t c.key)) i))
    | .key k =>
      if cfg.W.eq c.key k then some (m, .found c n tok i)
      else some (m, .probe c n tok t
        (nextIndex (m.vecs n).count (secondaryStride (cfg.W.hash t c.key)) i))
  | .found c n tok i => stepFound p m c n tok i
  | .missed c n tok t i => stepMissed cfg.W p m c n tok t i
  -- `table.dylan:1152`, `symbol-table.dylan:89,159`
  | .value c n tok x => some (m, if m.marked tok then badValue c n tok else .value2 c n tok x)
  | .value2 c n tok x =>
    some (m, match x with
      | .deleted => badValue c n tok
      | _ => if (m.vecs n).token = tok then .done c.id x.out else badValue c n tok)
  -- `table.dylan:1156`
  | .wait c => if m.lock = none then some (m, .start c) else none
  -- `needs-rehash?`, `table.dylan:460-464`
  | .need1 c n tok w => some (m, if m.marked tok then needYes c n w else .need2 c n tok w)
  | .need2 c n tok w =>
    some (m, if (m.vecs n).token = tok then .need3 c n tok w else needYes c n w)
  | .need3 c n tok w =>
    some (m, if isStale cfg.W m.now (m.vecs n).deps then needYes c n w else needNo c n tok w)
  -- `table.dylan:1319-1323`, `symbol-table.dylan:100-104`
  | .full c n must =>
    some (m, if must then .rehash c n (m.vecs n).full
      else if (m.vecs n).full then .rehash c n true else .start c)
  | .rehash c n grow => stepRehash cfg p b m c n grow
  -- `table.dylan:1266`
  | .newVal c n t i =>
    match c.kind.stores with
    | some v => some (m.modify n (Vec.setVal i (.val v)), .newKey c n t i)
    | none => none
  -- `table.dylan:1271`
  | .newKey c n _ i =>
    some ({ m.modify n (Vec.setKey i (.key c.key)) with lock := none },
      .done c.id (storedOut c.kind))
  -- `table.dylan:1375-1376`
  | .remVal c n i =>
    some ({ m.modify n (fun v => { v.setVal i .deleted with deletions := v.deletions + 1 }) with lock := none },
      .done c.id (.removed true))
  | .ipLoop c n w i => some (stepIpLoop m c n w i)
  -- `table.dylan:911`
  | .ipClear c n w i hk hv => some (m.modify n (Vec.setVal i .empty), .ipHand c n w i hk hv)
  -- `table.dylan:913-916`
  | .ipHand c n w i hk hv =>
    match hk with
    | .key k => some ({ m with now := m.now + 1 }, .ipHashed c n w i k hv m.now)
    | _ => some (m, .ipLoop c n w i)
  -- `table.dylan:917-919`
  | .ipHashed c n w i k hv t =>
    match probe (fun j => insertAt (w.bits j) ((m.vecs n).keys j)) (m.vecs n).count
      (secondaryStride (cfg.W.hash t k)) (m.vecs n).count
      (primaryIndex (cfg.W.hash t k) (m.vecs n).count) with
    | none => none
    | some j => some (m.modify n (Vec.setKey j (.key k)),
        .ipVal c n w i j k hv t ((m.vecs n).keys j) ((m.vecs n).vals j))
  -- `table.dylan:920-922`
  | .ipVal c n w i j k hv t nk nv =>
    some (m.modify n (Vec.setVal j hv),
      .ipHand c n { w with bits := Function.update w.bits j true, deps := (k, t) :: w.deps, cnt := w.cnt + 1 } i nk nv)
  -- `table.dylan:959`
  | .ipToken c n =>
    some ({ m.modify n (fun v => { v with token := m.ntok }) with lock := none, ntok := m.ntok + 1 },
      .start c)
  | .cpLoop c n dc w i => some (stepCpLoop m c n dc w i)
  -- `table.dylan:873-882`
  | .cpHashed c n dc w i k x t =>
    match probe (fun j => stopAt cfg.W k (w.keys j)) dc (secondaryStride (cfg.W.hash t k)) dc
      (primaryIndex (cfg.W.hash t k) dc) with
    | none => none
    | some j => some (m, .cpLoop c n dc { w with keys := Function.update w.keys j (.key k), vals := Function.update w.vals j x, deps := (k, t) :: w.deps, cnt := w.cnt + 1 } i)
  -- `remove-all-keys!`, `table.dylan:1413-1452`
  | .raStart id => some (m, .raAdds id m.cur)
  | .raAdds id n =>
    some (m, if (m.vecs n).additions = 0 then .done id .cleared else .raLock id n)
  | .raLock id n =>
    if m.lock = none then
      if cfg.inPlace && b then
        some ({ m.modify n (fun v => { v with additions := 0, deletions := 0 }) with lock := some p },
          .raKeys id n 0)
      else some (m, .raNew id)
    else none
  -- `clear-table-vector!`, `table.dylan:776-792`
  | .raKeys id n i =>
    if i < (m.vecs n).count then some (m.modify n (Vec.setKey i .empty), .raKeys id n (i + 1))
    else some (m, .raVals id n 0)
  | .raVals id n i =>
    if i < (m.vecs n).count then some (m.modify n (Vec.setVal i .empty), .raVals id n (i + 1))
    else some (m.modify n (fun v => { v with deps := [] }), .raToken id n)
  | .raToken id n =>
    some ({ m.modify n (fun v => { v with token := m.ntok }) with lock := none, ntok := m.ntok + 1 },
      .done id .cleared)
  | .raNew id => some (m, .raSwap id m.cur)
  | .raSwap id n =>
    if m.lock = none then
      if n = m.cur then some ({ m.mark n with lock := some p }, .raInstall id)
      else some (m, .raNew id)
    else none
  | .raInstall id =>
    match computeEntryCount cfg.initial with
    | none => none
    | some count => some ({ m.install (mkVec count m.ntok) with lock := none }, .done id .cleared)

/-- Where a call begins. -/
def begin_ (id : Nat) : Op K V → Pc K V
  | .on kind key => .start { id, called := kind, kind, key }
  | .removeAll => .raStart id

/-- What happens next: thread `p` makes a call, returns from one or goes on with one, or the
    collector runs. -/
inductive Act (K V : Type) where
  | call (p : Nat) (op : Op K V)
  | ret (p : Nat)
  | go (p : Nat) (b : Bool)
  | collect

/-- One step of the whole system. -/
def exec (cfg : Cfg K V) (s : State K V) : Act K V → Option (State K V × Option (Event K V))
  | .call p op =>
    match s.pc p with
    | .idle => some ({ s with pc := Function.update s.pc p (begin_ s.next op), next := s.next + 1 },
        some (.call s.next op))
    | _ => none
  | .ret p =>
    match s.pc p with
    | .done id out => some ({ s with pc := Function.update s.pc p .idle }, some (.ret id out))
    | _ => none
  | .go p b =>
    match step1 cfg p b s.mem (s.pc p) with
    | some (m, pc) => some ({ s with mem := m, pc := Function.update s.pc p pc }, none)
    | none => none
  | .collect => some ({ s with mem := { s.mem with now := s.mem.now + 1 } }, none)

/-- The steps of the system. -/
def Step (cfg : Cfg K V) (s : State K V) (e : Option (Event K V)) (s' : State K V) : Prop :=
  ∃ a, exec cfg s a = some (s', e)

/-- `make(<table>, size: initial)` (`table.dylan:1106-1113`): an empty table, no call in
    progress. -/
def Init (cfg : Cfg K V) (s : State K V) : Prop :=
  ∃ c, computeEntryCount cfg.initial = some c ∧
    s = { mem := { vecs := fun _ => mkVec c 0, nv := 1, cur := 0, marked := fun _ => false, ntok := 1, lock := none, now := 0 }
          pc := fun _ => .idle, next := 0 }

end
end Verif.Conc
