/-
Model of the class-keyed tables in which the dispatch cache of a generic function finds the
next engine node for the class of an argument (or for an argument that is a class)
  /repo/sources/dylan/new-dispatch.dylan:530-1191

A table starts with one key (monomorphic), turns into a short vector searched from the front
(linear) and then into an open-addressed hash table (hashed).

Simplifications, common to the whole file:
* the vector of alternating keys and values is a list of slots, one for each key/value pair, so
  that the element numbers `i` and `i + 1` of the code (`i` even) are the two halves of slot
  `i / 2`; all index arithmetic is kept on the numbers of the code;
* the distinguished object `$ckd-empty` is the empty slot `none`;
* the fields that the answers do not depend on (argument number, entry point code, hit counts,
  the bits copied from the generic function) are left out; the five bits that hold the logarithm
  of the size of a hashed table are an unbounded number (they would overflow at `2^31` classes);
* the default of a table by singleton class is an engine node; of a table by class it is the
  absent engine node.  The lookup functions here return `none` for "the default".
-/
import Mathlib.Data.List.Basic

namespace Verif.Dispatch.Table

/-- One key/value pair of a table, `none` if the key is `$ckd-empty`. -/
abbrev Slot (V : Type) := Option (Nat × V)

/-- A class-keyed discriminator: monomorphic (`new-dispatch.dylan:1179-1191`), linear
    (717-728) or hashed, with the logarithm of the number of elements of the vector (730-741).
    Keys are the unique numbers of classes. -/
inductive Ckd (V : Type) where
  | mono (s : Slot V)
  | lin (slots : List (Slot V))
  | hash (log2size : Nat) (slots : List (Slot V))
  deriving DecidableEq, Repr

variable {V : Type}

/-- `$linear-discriminator-table-limit` (`new-dispatch.dylan:609`). -/
def linearLimit : Nat := 2 * 5

/-- `$linear-discriminator-table-growth-increment` (`new-dispatch.dylan:610`). -/
def growthIncrement : Nat := 2 * 2

/-- The local method `f` of `hashed-class-keyed-discriminator-log2size`
    (`new-dispatch.dylan:615-620`), for `fuel` rounds. -/
def log2sizeFrom (storage : Nat) : Nat → Nat → Nat
  | 0, i => i + 1
  | fuel + 1, i => if storage < 2 ^ i then i + 1 else log2sizeFrom storage fuel (i + 1)

/-- `hashed-class-keyed-discriminator-log2size` (`new-dispatch.dylan:613-622`).  As
    `storage < 2 ^ storage`, the local method stops within `storage` rounds. -/
def log2sizeFor (storage : Nat) : Nat := log2sizeFrom storage storage 4

/-- A vector of `n` empty elements, as slots (`bootstrap-allocate-repeated-discriminator`,
    `new-dispatch.dylan:127-134`). -/
def empties (n : Nat) : List (Slot V) := List.replicate (n / 2) none

/-- `make-linear-class-keyed-discriminator` (`new-dispatch.dylan:717-728`). -/
def makeLinear (size : Nat) : Ckd V := .lin (empties size)

/-- `make-hashed-class-keyed-discriminator` (`new-dispatch.dylan:730-741`). -/
def makeHashed (log2size : Nat) : Ckd V := .hash log2size (empties (2 ^ log2size))

/-- `logand(n, -8)`. -/
def clear3 (n : Nat) : Nat := n - n % 8

/-- `make-initial-class-keyed-discriminator` (`new-dispatch.dylan:743-757`). -/
def makeInitial (keys : Nat) : Ckd V :=
  if ¬ 2 * keys < linearLimit then makeHashed (log2sizeFor (2 * keys))
  else makeLinear (clear3 (2 * keys + 3))

/-- `make-by-class-discriminator` (`new-dispatch.dylan:759-767`). -/
def makeByClass (keys : Nat) : Ckd V :=
  if keys = 1 then .mono none else makeInitial keys

/-- `make-by-singleton-class-discriminator` (`new-dispatch.dylan:769-776`). -/
def makeBySingleton (keys : Nat) : Ckd V := makeInitial keys

/-- Two times the number of slots: `%ckd-size` (`new-dispatch.dylan:592-595`). -/
def ckdSize (slots : List (Slot V)) : Nat := 2 * slots.length

/-- The slot whose key is element number `i`: `%ckd-ref` (`new-dispatch.dylan:582-585`). -/
def slotAt (slots : List (Slot V)) (i : Nat) : Slot V := (slots[i / 2]?).join

/-- The assignments to the elements `i + 1` and `i` (`new-dispatch.dylan:587-590`). -/
def setAt (slots : List (Slot V)) (i : Nat) (k : Nat) (v : V) : List (Slot V) :=
  slots.set (i / 2) (some (k, v))

/-- `%hckd-first-index` with `%ckd-mask` (`new-dispatch.dylan:597-599,880-884`). -/
def firstIndex (key : Nat) (slots : List (Slot V)) : Nat := key &&& (ckdSize slots - 2)

/-- `$second-hash-values` (`new-dispatch.dylan:887-904`). -/
def secondHashValues : List Nat :=
  [2, 6, 10, 14, 22, 26, 34, 38, 46, 58, 62, 74, 82, 86, 94, 106]

/-- First value of `%hckd-hash-step` (`new-dispatch.dylan:909-917`). -/
def hashStep (key log2size : Nat) : Nat :=
  (secondHashValues[(key >>> log2size) &&& 15]?).getD 0

/-- Second value of `%hckd-hash-step` (`new-dispatch.dylan:916`). -/
def hashMask (log2size : Nat) : Nat := 2 ^ log2size - 2

/-- `%hckd-next-index` (`new-dispatch.dylan:921-925`). -/
def nextIndex (i step mask : Nat) : Nat := (i + step) &&& mask

/-- `linear-class-key-lookup` (`new-dispatch.dylan:786-805`), from some slot on. -/
def linearLookup (key : Nat) : List (Slot V) → Option V
  | [] => none
  | some (k, v) :: rest => if k = key then some v else linearLookup key rest
  | none :: rest => linearLookup key rest

/-- Where a search of a hashed table for a key ends: at a slot with that key, or at an empty
    slot, in each case with the element number and the number of probes made before. -/
inductive Found (V : Type) where
  | hit (i : Nat) (v : V)
  | empty (i : Nat) (probes : Nat)

/-- The probing loops of `hashed-class-key-lookup` (`new-dispatch.dylan:927-952`) and of
    `hckd-add!` (1087-1107), at element number `i` after `n` probes, for at most `fuel` further
    probes.  `none`: still not at an end. -/
def probe (slots : List (Slot V)) (key step mask : Nat) : Nat → Nat → Nat → Option (Found V)
  | 0, _, _ => none
  | fuel + 1, i, n =>
    match slotAt slots i with
    | none => some (.empty i n)
    | some (k, v) =>
      if k = key then some (.hit i v)
      else probe slots key step mask fuel (nextIndex i step mask) (n + 1)

/-- A whole search.  After as many probes as there are slots the same elements come round
    again, so that `none` means that the loop of the code runs forever. -/
def search (log2size : Nat) (slots : List (Slot V)) (key : Nat) : Option (Found V) :=
  probe slots key (hashStep key log2size) (hashMask log2size) slots.length
    (firstIndex key slots) 0

/-- `ckd-lookup` and the entry points that look up the class of an argument
    (`new-dispatch.dylan:846-856,927-992,1179-1191`).  `none`: the search never ends;
    `some none`: the default. -/
def lookup (key : Nat) : Ckd V → Option (Option V)
  | .mono none => some none
  | .mono (some (k, v)) => some (if k = key then some v else none)
  | .lin slots => some (linearLookup key slots)
  | .hash log2size slots =>
    match search log2size slots key with
    | none => none
    | some (.hit _ v) => some (some v)
    | some (.empty _ _) => some none

/-- The local method `count` of `enlarge?` (`new-dispatch.dylan:1068-1085`): the number of keys. -/
def count (slots : List (Slot V)) : Nat := (slots.filter Option.isSome).length

/-- `enlarge?` (`new-dispatch.dylan:1065-1087`). -/
def enlarge (slots : List (Slot V)) (probes : Nat) : Bool :=
  let siz := ckdSize slots
  let cnt := count slots
  let quarterfull := siz >>> 3
  if ¬ quarterfull < cnt then false
  else
    let halffull := siz >>> 2
    if cnt ≤ halffull then decide (probes > 7)
    else decide (cnt ≥ quarterfull + halffull) || decide (probes > 4)

/-- The part of `lckd-add!` that finds its slot (`new-dispatch.dylan:1124-1140`); `none` if the
    end of the vector is reached. -/
def linearAdd (key : Nat) (v : V) : List (Slot V) → Option (List (Slot V))
  | [] => none
  | none :: rest => some (some (key, v) :: rest)
  | some (k, w) :: rest =>
    if k = key then some (some (k, v) :: rest)
    else (linearAdd key v rest).map (some (k, w) :: ·)

/-- The table `nd` that `grow-linear-class-keyed-discriminator` makes before it copies the
    entries (`new-dispatch.dylan:627-642`). -/
def grownLinear (slots : List (Slot V)) : Ckd V :=
  let nstgsiz := ckdSize slots + growthIncrement
  if ¬ nstgsiz < linearLimit then makeHashed (log2sizeFor nstgsiz) else makeLinear nstgsiz

/-- `ckd-add!` (`new-dispatch.dylan:1015-1032`) with `mckd-add!` (1036-1056), `lckd-add!`
    (1119-1142), `hckd-add!` (1060-1109), `grow-linear-class-keyed-discriminator` (624-651) and
    `grow-hashed-class-keyed-discriminator` (653-679), down to `fuel` nested calls.  The result is
    the discriminator to be used from then on.  `none`: not finished within the given depth, or a
    search that never ends.
    Simplification: the copying loop of a full linear table passes every slot, as it should have
    no empty one; the model skips empty slots in both loops. -/
def add : Nat → Ckd V → Nat → V → Option (Ckd V)
  | 0, _, _, _ => none
  | fuel + 1, d, key, v =>
    let refill (slots : List (Slot V)) (nd : Ckd V) : Option (Ckd V) :=
      slots.foldl (fun nd s => match s with
        | none => nd
        | some (k, w) => nd.bind fun nd => add fuel nd k w) (some nd)
    match d with
    | .mono none => some (.mono (some (key, v)))
    | .mono (some (k, w)) =>
      if k = key then some (.mono (some (k, v)))
      else (add fuel (makeLinear 2) k w).bind fun nd => add fuel nd key v
    | .lin slots =>
      match linearAdd key v slots with
      | some slots' => some (.lin slots')
      | none => (refill slots (grownLinear slots)).bind fun nd => add fuel nd key v
    | .hash log2size slots =>
      match search log2size slots key with
      | none => none
      | some (.hit i _) => some (.hash log2size (setAt slots i key v))
      | some (.empty i probes) =>
        if enlarge slots probes then
          (refill slots (makeHashed (log2size + 1))).bind fun nd => add fuel nd key v
        else some (.hash log2size (setAt slots i key v))

/-- A sequence of additions, each one to the discriminator that the previous one returned
    (`compute-discriminator-for-arg`, `walk-existing-dispatch-engine`:
    `discrimination.dylan:285-300,556-573`). -/
def addAll (fuel : Nat) (d : Ckd V) : List (Nat × V) → Option (Ckd V)
  | [] => some d
  | (k, v) :: rest => (add fuel d k v).bind fun d => addAll fuel d rest

end Verif.Dispatch.Table
