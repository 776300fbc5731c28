/-
Model of bit vectors and bit sets: /repo/sources/collections/bit-vector.dylan and
/repo/sources/collections/bit-set.dylan, with 64-bit words.

Vectors and sets are objects in a heap, so the model says which object a function changes and which
it shares.  An access outside the words of a vector is an outcome of its own (`outside`): the code
does not check it.

Simplifications: sizes are natural numbers (`make` with a negative size is not modelled) and do not
overflow; a bit is a Boolean; slots of a new object are set in one step.
-/
import Mathlib.Logic.Function.Basic

namespace Verif.Bits

/-- A machine word. -/
abbrev W := BitVec 64

/-- How a call ends: with a result, with the overflow error of `ash`, with `element-range-error`, with
    the error for backward iteration over an infinite set, or by an access outside a vector. -/
inductive Out (α : Type) where
  | ok (a : α)
  | overflow
  | range
  | infinite
  | outside
  deriving DecidableEq

/-- Go on after a result. -/
def Out.bind {α β : Type} : Out α → (α → Out β) → Out β
  | .ok a, f => f a
  | .overflow, _ => .overflow
  | .range, _ => .range
  | .infinite, _ => .infinite
  | .outside, _ => .outside

instance : Monad Out where
  pure := Out.ok
  bind := Out.bind

/-- `<bit-vector>` (`bit-vector.dylan:496-504`). -/
structure BV where
  size : Nat
  wsize : Nat
  word : Nat → W

/-- The vectors made so far; the first is `$empty-bit-vector` (`bit-vector.dylan:518-519`). -/
structure Heap where
  vec : Nat → BV
  next : Nat

/-- `bit-vector-word`, without a bounds check. -/
def getW (h : Heap) (r j : Nat) : Out W :=
  if j < (h.vec r).wsize then .ok ((h.vec r).word j) else .outside

/-- `bit-vector-word-setter`, without a bounds check. -/
def setW (h : Heap) (r j : Nat) (w : W) : Out Heap :=
  if j < (h.vec r).wsize then
    .ok { h with vec := Function.update h.vec r { h.vec r with word := Function.update (h.vec r).word j w } }
  else .outside

/-- `for (i from i, ...)` with `n` rounds. -/
def loop {σ : Type} (body : Nat → σ → Out σ) : Nat → Nat → σ → Out σ
  | 0, _, h => .ok h
  | n + 1, i, h => (body i h).bind (loop body n (i + 1))

/-- `compute-word-offset` (`bit-vector.dylan:28-31`); `$log-word-size` is 6. -/
def wordOffset (i : Nat) : Nat := i / 64

/-- `compute-bit-offset` (`bit-vector.dylan:33-36`). -/
def bitOffset (i : Nat) : Nat := i % 64

/-- `raw-mask-for-bits-above` (`bit-vector.dylan:71-75`). -/
def above (bit : Nat) : W := BitVec.allOnes 64 <<< bit

/-- `raw-mask-for-bits-strictly-below` (`bit-vector.dylan:77-82`). -/
def below (bit : Nat) : W := ~~~ (BitVec.allOnes 64 <<< bit)

/-- `raw-mask-and-pad-word` (`bit-vector.dylan:84-94`). -/
def maskAndPad (word : W) (bit : Nat) (pad : Bool) : W :=
  if bit = 0 then word else if pad = false then word &&& below bit else word ||| above bit

/-- A word of equal bits. -/
def fillWord (b : Bool) : W := if b = false then 0#64 else BitVec.allOnes 64

/-- `copy-bit-vector-word` (`bit-vector.dylan:96-121`). -/
def copyWord (h : Heap) (source destination word bitLimit : Nat) (fill : Bool) : Out Heap := do
  let src ← getW h source word
  if bitOffset bitLimit = 0 then setW h destination word src
  else if fill = false then setW h destination word (src &&& below (bitOffset bitLimit))
  else setW h destination word (src ||| above (bitOffset bitLimit))

/-- `make(<bit-vector-internal>, ...)`: a new object; its words are written before they are read. -/
def allocate (h : Heap) (size wsize : Nat) : Heap :=
  { vec := Function.update h.vec h.next { size, wsize, word := fun _ => 0#64 }, next := h.next + 1 }

/-- `make(<bit-vector>, ...)` (`bit-vector.dylan:521-557`). -/
def make (h : Heap) (size : Nat) (roundUp fill : Bool) (copyFrom : Nat) : Out (Heap × Nat) :=
  if size = 0 then .ok (h, 0)
  else
    let wsize := (size - 1) / 64 + 1
    let bitSize := if roundUp then wsize * 64 else size
    let v := h.next
    let h := allocate h bitSize wsize
    (loop (fun i h => setW h v i (fillWord fill)) wsize 0 h).bind fun h =>
      let copySize := (h.vec copyFrom).size
      if copySize = 0 then .ok (h, v)
      else if bitSize ≤ copySize then
        (loop (fun i h => (getW h copyFrom i).bind (setW h v i)) wsize 0 h).bind fun h => .ok (h, v)
      else
        let last := (h.vec copyFrom).wsize - 1
        (loop (fun i h => (getW h copyFrom i).bind (setW h v i)) last 0 h).bind fun h =>
          (copyWord h copyFrom v last copySize fill).bind fun h => .ok (h, v)

/-- `element-no-bounds-check` (`bit-vector.dylan:661-680`). -/
def getBit (h : Heap) (r i : Nat) : Out Bool :=
  (getW h r (wordOffset i)).bind fun w => .ok (w.getLsbD (bitOffset i))

/-- `element` (`bit-vector.dylan:624-655`) with no default. -/
def element (h : Heap) (r : Nat) (i : Int) : Out Bool :=
  if 0 ≤ i ∧ i < (h.vec r).size then getBit h r i.toNat else .range

/-- `element-no-bounds-check-setter` (`bit-vector.dylan:725-750`). -/
def setBit (h : Heap) (r i : Nat) (bit : Bool) : Out Heap :=
  (getW h r (wordOffset i)).bind fun w =>
    setW h r (wordOffset i)
      (if bit = false then w &&& ~~~ (1#64 <<< bitOffset i) else w ||| (1#64 <<< bitOffset i))

/-- `element-setter` (`bit-vector.dylan:686-719`). -/
def setElement (h : Heap) (r : Nat) (i : Int) (bit : Bool) : Out Heap :=
  if 0 ≤ i ∧ i < (h.vec r).size then setBit h r i.toNat bit else .range

/-- `integer-as-raw(ash(-1, n))` (`bit-vector.dylan:774-775`): an integer has 62 bits, so `ash` signals
    an overflow from 62 on (`Verif.Integer.ash`). -/
def ashMask (n : Nat) : Out W := if n ≤ 61 then .ok (BitVec.allOnes 64 <<< n) else .overflow

/-- `fill!` within one word (`bit-vector.dylan:773-786`). -/
def fillOne (h : Heap) (r : Nat) (value : Bool) (word start last : Nat) : Out Heap := do
  let startMask ← ashMask start
  let lastMask ← ashMask last
  let w ← getW h r word
  if value = false then setW h r word ((lastMask ||| ~~~ startMask) &&& w)
  else setW h r word ((lastMask ^^^ startMask) ||| w)

/-- `fill!` (`bit-vector.dylan:756-846`). -/
def fill (h : Heap) (r : Nat) (value : Bool) (start : Nat) (last : Option Nat) : Out Heap :=
  if (h.vec r).size = 0 then .ok h
  else
    let last := last.getD (h.vec r).size
    if wordOffset last = wordOffset start then
      fillOne h r value (wordOffset start) (bitOffset start) (bitOffset last)
    else
      let lastWord := if last = (h.vec r).size then (h.vec r).wsize else wordOffset last
      let lastPart : Out Heap :=
        if last = (h.vec r).size ∨ bitOffset last = 0 then .ok h
        else (getW h r (wordOffset last)).bind fun w =>
          setW h r (wordOffset last) (if value = false then w &&& above (bitOffset last) else w ||| below (bitOffset last))
      lastPart.bind fun h =>
      let startWord := if bitOffset start = 0 then wordOffset start else wordOffset start + 1
      let startPart : Out Heap :=
        if bitOffset start = 0 then .ok h
        else (getW h r (wordOffset start)).bind fun w =>
          setW h r (wordOffset start) (if value = false then w &&& below (bitOffset start) else w ||| above (bitOffset start))
      startPart.bind fun h =>
        loop (fun i h => setW h r i (fillWord value)) (lastWord - startWord) startWord h

/-- `copy-sequence` of a whole bit vector (`vector.dylan:259-279`, `bit-vector.dylan:509-512`). -/
def copySequence (h : Heap) (r : Nat) : Out (Heap × Nat) :=
  if (h.vec r).size = 0 then make h 0 false false 0
  else
    (element h r 0).bind fun f =>
    (make h (h.vec r).size false f 0).bind fun (h, v) =>
    (loop (fun i h => (getBit h r i).bind (setBit h v i)) (h.vec r).size 0 h).bind fun h => .ok (h, v)

/-! ### logical operations -/

/-- A logical operation on words, and what it makes of a word `v2` of the longer vector beyond the end
    of the shorter one, whose pad is `p1`. -/
structure WordOp where
  op : W → W → W
  tail : Bool → W → W

/-- `bit-vector-and-internal!` (`bit-vector.dylan:160-214`). -/
def andOp : WordOp where
  op v1 v2 := v1 &&& v2
  tail p1 v2 := if p1 = false then 0#64 else v2

/-- `bit-vector-andc2-internal!` (`bit-vector.dylan:217-277`). -/
def andc2Op : WordOp where
  op v1 v2 := v1 &&& ~~~ v2
  tail p1 v2 := if p1 = false then 0#64 else ~~~ v2

/-- `bit-vector-andc2-internal-swapped!` (`bit-vector.dylan:279-339`). -/
def andc2SwappedOp : WordOp where
  op v1 v2 := ~~~ v1 &&& v2
  tail p1 v2 := if p1 = false then v2 else 0#64

/-- `bit-vector-or-internal!` (`bit-vector.dylan:342-398`). -/
def orOp : WordOp where
  op v1 v2 := v1 ||| v2
  tail p1 v2 := if p1 = false then v2 else BitVec.allOnes 64

/-- `bit-vector-xor-internal!` (`bit-vector.dylan:401-457`). -/
def xorOp : WordOp where
  op v1 v2 := v1 ^^^ v2
  tail p1 v2 := if p1 = false then v2 else ~~~ v2

/-- The text the five functions share; `v1` is the shorter vector.  (In the last word of the shorter
    vector some of them pass the operands of a commutative operation in the other order.) -/
def internal (f : WordOp) (h : Heap) (result v1 v2 : Nat) (p1 : Bool) : Out Heap :=
  let limit := (h.vec v1).wsize - 1
  (loop (fun i h => (getW h v1 i).bind fun a => (getW h v2 i).bind fun b => setW h result i (f.op a b)) limit 0 h).bind fun h =>
  if (h.vec v1).size = (h.vec result).size then
    (getW h v1 limit).bind fun a => (getW h v2 limit).bind fun b => setW h result limit (f.op a b)
  else
    (if (h.vec v1).wsize = 0 then .ok h
     else (getW h v1 limit).bind fun a => (getW h v2 limit).bind fun b =>
      setW h result limit (f.op (maskAndPad a (bitOffset (h.vec v1).size) p1) b)).bind fun h =>
    loop (fun i h => (getW h v2 i).bind fun b => setW h result i (f.tail p1 b)) ((h.vec result).wsize - (h.vec v1).wsize)
      (h.vec v1).wsize h

/-- Sort the vectors by their sizes and call the internal function
    (`bit-vector.dylan:925-934,954-963,1054-1063,1083-1092,1109-1118,1137-1146`). -/
def sorted (f : WordOp) (h : Heap) (result vector1 vector2 : Nat) (pad1 pad2 : Bool) : Out Heap :=
  if (h.vec vector1).size ≤ (h.vec vector2).size then internal f h result vector1 vector2 pad1
  else internal f h result vector2 vector1 pad2

/-- `bit-vector-and` (`bit-vector.dylan:903-936`). -/
def bitAnd (h : Heap) (vector1 vector2 : Nat) (pad1 pad2 : Bool) : Out (Heap × Nat × Bool) :=
  let size1 := (h.vec vector1).size
  let size2 := (h.vec vector2).size
  let resultSize :=
    if pad1 = false then if pad2 = false then min size1 size2 else size1
    else if pad2 = false then size2 else max size1 size2
  (make h resultSize false false 0).bind fun (h, result) =>
  (if 0 < resultSize then sorted andOp h result vector1 vector2 pad1 pad2 else .ok h).bind fun h =>
    .ok (h, result, pad1 && pad2)

/-- `bit-vector-and!` (`bit-vector.dylan:941-965`). -/
def bitAndX (h : Heap) (vector1 vector2 : Nat) (pad1 pad2 : Bool) : Out (Heap × Nat × Bool) :=
  let size1 := (h.vec vector1).size
  let size2 := (h.vec vector2).size
  (if size2 ≤ size1 ∨ pad1 = false then .ok (h, vector1) else make h size2 false false 0).bind fun (h, result) =>
  (if 0 < (h.vec result).size then sorted andOp h result vector1 vector2 pad1 pad2 else .ok h).bind fun h =>
    .ok (h, result, pad1 && pad2)

/-- The two ways of `bit-vector-andc2` (`bit-vector.dylan:992-998,1019-1025`). -/
def sorted2 (h : Heap) (result vector1 vector2 : Nat) (pad1 pad2 : Bool) : Out Heap :=
  if (h.vec vector1).size ≤ (h.vec vector2).size then internal andc2Op h result vector1 vector2 pad1
  else internal andc2SwappedOp h result vector2 vector1 pad2

/-- `bit-vector-andc2` (`bit-vector.dylan:970-1001`). -/
def bitAndc2 (h : Heap) (vector1 vector2 : Nat) (pad1 pad2 : Bool) : Out (Heap × Nat × Bool) :=
  let size1 := (h.vec vector1).size
  let size2 := (h.vec vector2).size
  let resultSize :=
    if pad1 = false then if pad2 = false then size1 else min size1 size2
    else if pad2 = false then max size1 size2 else size2
  (make h resultSize false false 0).bind fun (h, result) =>
  (if 0 < resultSize then sorted2 h result vector1 vector2 pad1 pad2 else .ok h).bind fun h =>
    .ok (h, result, pad1 && !pad2)

/-- `bit-vector-andc2!` (`bit-vector.dylan:1006-1028`). -/
def bitAndc2X (h : Heap) (vector1 vector2 : Nat) (pad1 pad2 : Bool) : Out (Heap × Nat × Bool) :=
  let size1 := (h.vec vector1).size
  let size2 := (h.vec vector2).size
  (if size2 ≤ size1 ∨ pad1 = false then .ok (h, vector1) else make h size2 false false 0).bind fun (h, result) =>
  (if 0 < (h.vec result).size then sorted2 h result vector1 vector2 pad1 pad2 else .ok h).bind fun h =>
    .ok (h, result, pad1 && !pad2)

/-- `bit-vector-or` (`bit-vector.dylan:1033-1066`). -/
def bitOr (h : Heap) (vector1 vector2 : Nat) (pad1 pad2 : Bool) : Out (Heap × Nat × Bool) :=
  let size1 := (h.vec vector1).size
  let size2 := (h.vec vector2).size
  let resultSize :=
    if pad1 = false then if pad2 = false then max size1 size2 else size2
    else if pad2 = false then size1 else min size1 size2
  (make h resultSize false false 0).bind fun (h, result) =>
  (if 0 < resultSize then sorted orOp h result vector1 vector2 pad1 pad2 else .ok h).bind fun h =>
    .ok (h, result, pad1 || pad2)

/-- `bit-vector-or!` (`bit-vector.dylan:1071-1095`). -/
def bitOrX (h : Heap) (vector1 vector2 : Nat) (pad1 pad2 : Bool) : Out (Heap × Nat × Bool) :=
  let size1 := (h.vec vector1).size
  let size2 := (h.vec vector2).size
  (if size2 ≤ size1 ∨ pad1 = true then .ok (h, vector1) else make h size2 false false 0).bind fun (h, result) =>
  (if 0 < (h.vec result).size then sorted orOp h result vector1 vector2 pad1 pad2 else .ok h).bind fun h =>
    .ok (h, result, pad1 || pad2)

/-- `bit-vector-xor` (`bit-vector.dylan:1100-1120`). -/
def bitXor (h : Heap) (vector1 vector2 : Nat) (pad1 pad2 : Bool) : Out (Heap × Nat × Bool) :=
  let resultSize := max (h.vec vector1).size (h.vec vector2).size
  (make h resultSize false false 0).bind fun (h, result) =>
  (if 0 < resultSize then sorted xorOp h result vector1 vector2 pad1 pad2 else .ok h).bind fun h =>
    .ok (h, result, xor pad1 pad2)

/-- `bit-vector-xor!` (`bit-vector.dylan:1125-1149`). -/
def bitXorX (h : Heap) (vector1 vector2 : Nat) (pad1 pad2 : Bool) : Out (Heap × Nat × Bool) :=
  let size1 := (h.vec vector1).size
  let size2 := (h.vec vector2).size
  (if size2 ≤ size1 then .ok (h, vector1) else make h size2 false false 0).bind fun (h, result) =>
  (if 0 < (h.vec result).size then sorted xorOp h result vector1 vector2 pad1 pad2 else .ok h).bind fun h =>
    .ok (h, result, xor pad1 pad2)

/-- `bit-vector-not` (`bit-vector.dylan:1154-1164`). -/
def bitNot (h : Heap) (vector : Nat) (pad : Bool) : Out (Heap × Nat × Bool) :=
  (make h (h.vec vector).size false false 0).bind fun (h, result) =>
  (loop (fun i h => (getW h vector i).bind fun a => setW h result i (~~~ a)) (h.vec vector).wsize 0 h).bind fun h =>
    .ok (h, result, !pad)

/-- `bit-vector-not!` (`bit-vector.dylan:1169-1178`). -/
def bitNotX (h : Heap) (vector : Nat) (pad : Bool) : Out (Heap × Nat × Bool) :=
  (loop (fun i h => (getW h vector i).bind fun a => setW h vector i (~~~ a)) (h.vec vector).wsize 0 h).bind fun h =>
    .ok (h, vector, !pad)

/-- `primitive-machine-word-count-ones`. -/
def countOnes (w : W) : Nat := (List.range 64).countP fun i => w.getLsbD i

/-- `bit-count` (`bit-vector.dylan:1183-1210`). -/
def bitCount (h : Heap) (vector : Nat) (value : Bool) : Out Nat :=
  let size := (h.vec vector).size
  let wsize := (h.vec vector).wsize
  (loop (fun i count => (getW h vector i).bind fun word =>
    let word := if i + 1 = wsize ∧ bitOffset size ≠ 0 then word &&& below (bitOffset size) else word
    .ok (count + countOnes word)) wsize 0 0).bind fun count =>
  .ok (if value = false then size - count else count)

/-! ### bit sets -/

/-- `<bit-set>` (`bit-set.dylan:12-16`): the pad and the vector. -/
structure BSet where
  pad : Bool
  vec : Nat

/-- The vectors and the sets made so far. -/
structure State where
  heap : Heap
  set : Nat → BSet
  next : Nat

/-- Store a set. -/
def State.put (s : State) (h : Heap) (x : Nat) (t : BSet) : State :=
  { s with heap := h, set := Function.update s.set x t }

/-- A new set. -/
def State.new (s : State) (h : Heap) (t : BSet) : State × Nat :=
  ({ heap := h, set := Function.update s.set s.next t, next := s.next + 1 }, s.next)

/-- `make(<bit-set>, upper-bound-hint: hint, all-members-from: n)` (`bit-set.dylan:22-46`); members are
    added by `set-add!` afterwards. -/
def makeSet (s : State) (hint allFrom : Option Nat) : Out (State × Nat) :=
  let pad := allFrom.isSome
  match (match allFrom with | some n => some n | none => hint) with
  | none => .ok (s.new s.heap { pad := false, vec := 0 })
  | some n => (make s.heap n false false 0).bind fun (h, v) => .ok (s.new h { pad, vec := v })

/-- `member?` (`bit-set.dylan:80-93`). -/
def member (s : State) (x : Nat) (i : Int) : Out Bool :=
  if i < 0 then .range
  else if i < (s.heap.vec (s.set x).vec).size then getBit s.heap (s.set x).vec i.toNat
  else .ok (s.set x).pad

/-- The vector of `set-add` and `set-remove` (`bit-set.dylan:104-110,160-166`). -/
def extended (s : State) (x i : Nat) (bit : Bool) : Out (Heap × Nat) :=
  if (s.heap.vec (s.set x).vec).size ≤ i ∧ (s.set x).pad = !bit then
    make s.heap (i + 1) true (!bit) (s.set x).vec
  else copySequence s.heap (s.set x).vec

/-- `set-add` (`bit-set.dylan:99-116`) and `set-remove` (`bit-set.dylan:155-172`), which differ in the
    bit they store. -/
def withBit (s : State) (x : Nat) (i : Int) (bit : Bool) : Out (State × Nat) :=
  if i < 0 then .range
  else
    (extended s x i.toNat bit).bind fun (h, v) =>
    (if i < (h.vec v).size then setBit h v i.toNat bit else .ok h).bind fun h =>
    .ok (s.new h { pad := (s.set x).pad, vec := v })

/-- `set-add!` (`bit-set.dylan:122-140`) and `set-remove!` (`bit-set.dylan:178-196`). -/
def withBitX (s : State) (x : Nat) (i : Int) (bit : Bool) : Out State :=
  if i < 0 then .range
  else if (s.heap.vec (s.set x).vec).size ≤ i.toNat then
    if (s.set x).pad = !bit then
      (make s.heap (i.toNat + 1) true (!bit) (s.set x).vec).bind fun (h, v) =>
      (setBit h v i.toNat bit).bind fun h => .ok (s.put h x { pad := (s.set x).pad, vec := v })
    else .ok s
  else (setBit s.heap (s.set x).vec i.toNat bit).bind fun h => .ok { s with heap := h }

/-- The operations on two sets. -/
inductive Binary where
  | union
  | intersection
  | difference

/-- `set-union`, `set-intersection`, `set-difference` (`bit-set.dylan:274-280,300-306,326-332`). -/
def combine (s : State) (x y : Nat) (o : Binary) : Out (State × Nat) :=
  let v1 := (s.set x).vec
  let v2 := (s.set y).vec
  let p1 := (s.set x).pad
  let p2 := (s.set y).pad
  (match o with
    | .union => bitOr s.heap v1 v2 p1 p2
    | .intersection => bitAnd s.heap v1 v2 p1 p2
    | .difference => bitAndc2 s.heap v1 v2 p1 p2).bind fun (h, v, pad) => .ok (s.new h { pad, vec := v })

/-- `set-union!`, `set-intersection!`, `set-difference!` (`bit-set.dylan:286-294,312-320,338-346`). -/
def combineX (s : State) (x y : Nat) (o : Binary) : Out State :=
  let v1 := (s.set x).vec
  let v2 := (s.set y).vec
  let p1 := (s.set x).pad
  let p2 := (s.set y).pad
  (match o with
    | .union => bitOrX s.heap v1 v2 p1 p2
    | .intersection => bitAndX s.heap v1 v2 p1 p2
    | .difference => bitAndc2X s.heap v1 v2 p1 p2).bind fun (h, v, pad) => .ok (s.put h x { pad, vec := v })

/-- `set-complement` (`bit-set.dylan:352-357`). -/
def complement (s : State) (x : Nat) : Out (State × Nat) :=
  (bitNot s.heap (s.set x).vec (s.set x).pad).bind fun (h, v, pad) => .ok (s.new h { pad, vec := v })

/-- `set-complement!` (`bit-set.dylan:363-370`). -/
def complementX (s : State) (x : Nat) : Out State :=
  (bitNotX s.heap (s.set x).vec (s.set x).pad).bind fun (h, v, pad) => .ok (s.put h x { pad, vec := v })

/-- `copy-bit-set!` (`bit-set.dylan:376-380`). -/
def copyX (s : State) (x y : Nat) : Out State :=
  (copySequence s.heap (s.set y).vec).bind fun (h, v) => .ok (s.put h x { pad := (s.set y).pad, vec := v })

/-- `empty-bit-set!` and `universal-bit-set!` (`bit-set.dylan:387-399`). -/
def setAllX (s : State) (x : Nat) (bit : Bool) : Out State :=
  (fill s.heap (s.set x).vec bit 0 none).bind fun h => .ok (s.put h x { pad := bit, vec := (s.set x).vec })

/-- `infinite?` (`bit-set.dylan:245-247`). -/
def isInfinite (s : State) (x : Nat) : Bool := (s.set x).pad

/-- `size` (`bit-set.dylan:262-268`): none is `#f`. -/
def setSize (s : State) (x : Nat) : Out (Option Nat) :=
  if (s.set x).pad = true then .ok none
  else (bitCount s.heap (s.set x).vec true).bind fun n => .ok (some n)

/-- `empty?` (`bit-set.dylan:253-256`). -/
def isEmpty (s : State) (x : Nat) : Out Bool :=
  (setSize s x).bind fun n => .ok (decide (n = some 0))

/-- `\=` (`bit-set.dylan:52-73`).  `result & ...` does not look at the bits once the result is false. -/
def equal (s : State) (x y : Nat) : Out Bool :=
  if x = y then .ok true
  else if (s.set x).pad ≠ (s.set y).pad then .ok false
  else
    let v1 := (s.set x).vec
    let v2 := (s.set y).vec
    let size1 := (s.heap.vec v1).size
    let size2 := (s.heap.vec v2).size
    let n := min size1 size2
    (loop (fun i (result : Bool) => if result then
        (element s.heap v1 i).bind fun a => (element s.heap v2 i).bind fun b => .ok (a == b)
      else .ok false) n 0 true).bind fun result =>
    (loop (fun i (result : Bool) => if result then
        (element s.heap v1 i).bind fun a => .ok (a == (s.set x).pad)
      else .ok false) (size1 - n) n result).bind fun result =>
    loop (fun i (result : Bool) => if result then
        (element s.heap v2 i).bind fun b => .ok (b == (s.set y).pad)
      else .ok false) (size2 - n) n result

/-! ### calls -/

/-- A call that makes or changes a set; sets are numbered, and a call that returns a new set returns the
    next number. -/
inductive Op where
  | make (hint allFrom : Option Nat)
  | withBit (x : Nat) (i : Int) (bit : Bool)
  | withBitX (x : Nat) (i : Int) (bit : Bool)
  | combine (o : Binary) (x y : Nat)
  | combineX (o : Binary) (x y : Nat)
  | complement (x : Nat)
  | complementX (x : Nat)
  | copyX (x y : Nat)
  | setAllX (x : Nat) (bit : Bool)

/-- One call. -/
def call (s : State) : Op → Out State
  | .make hint allFrom => (makeSet s hint allFrom).bind fun r => .ok r.1
  | .withBit x i bit => (withBit s x i bit).bind fun r => .ok r.1
  | .withBitX x i bit => withBitX s x i bit
  | .combine o x y => (combine s x y o).bind fun r => .ok r.1
  | .combineX o x y => combineX s x y o
  | .complement x => (complement s x).bind fun r => .ok r.1
  | .complementX x => complementX s x
  | .copyX x y => copyX s x y
  | .setAllX x bit => setAllX s x bit

/-- Calls one after the other. -/
def calls : State → List Op → Out State
  | s, [] => .ok s
  | s, op :: r => (call s op).bind fun s => calls s r

/-- No sets, and no vector but the empty one. -/
def start : State where
  heap := { vec := fun _ => { size := 0, wsize := 0, word := fun _ => 0#64 }, next := 1 }
  set := fun _ => { pad := false, vec := 0 }
  next := 0

/-! ### iteration -/

/-- `<bit-set-iteration-state>` (`bit-set.dylan:409-414`). -/
structure Iter where
  word : W
  element : Int
  wordOffset : Int
  bitOffset : Int
  deriving DecidableEq

/-- The inner loop of `bs-fip-initial-state` (`bit-set.dylan:478-488`): the first bit from `i` on, where
    `word` has been shifted to the right by `i`. -/
def firstBit : Nat → Nat → W → Option (Nat × W)
  | 0, _, _ => none
  | n + 1, i, word => if (word &&& 1#64) = 1#64 then some (i, word) else firstBit n (i + 1) (word >>> 1)

/-- The outer loop of `bs-fip-initial-state` (`bit-set.dylan:476-490`). -/
def firstWord (h : Heap) (r : Nat) : Nat → Nat → Out (Option (Nat × Nat × W))
  | 0, _ => .ok none
  | n + 1, j => (getW h r j).bind fun w =>
    match firstBit 64 0 w with
    | some (i, word) => .ok (some (j, i, word))
    | none => firstWord h r n (j + 1)

/-- `bs-fip-initial-state` (`bit-set.dylan:471-496`). -/
def fipInitial (s : State) (x : Nat) : Out Iter :=
  let r := (s.set x).vec
  let wsize := (s.heap.vec r).wsize
  (firstWord s.heap r wsize 0).bind fun found =>
    match found with
    | some (j, i, word) => .ok { word, wordOffset := j, bitOffset := i, element := (j : Int) * 64 + i }
    | none => .ok { word := 0#64, wordOffset := (wsize : Int) - 1, bitOffset := 64, element := ((wsize : Int) - 1) * 64 + 64 }

/-- `bs-fip-next-state` (`bit-set.dylan:503-541`).  The first loop goes on in the current word, the second
    through the words that follow; `current-element` is counted up with the bits. -/
def fipNext (s : State) (x : Nat) (t : Iter) : Out Iter :=
  let r := (s.set x).vec
  let size := (s.heap.vec r).size
  let wsize := (s.heap.vec r).wsize
  if t.element ≥ size then .ok { t with element := t.element + 1 }
  else
    match firstBit (63 - t.bitOffset).toNat (t.bitOffset + 1).toNat (t.word >>> 1) with
    | some (i, word) => .ok { t with word, bitOffset := i, element := t.element + (i - t.bitOffset) }
    | none =>
      (firstWord s.heap r (wsize - (t.wordOffset + 1)).toNat (t.wordOffset + 1).toNat).bind fun found =>
        match found with
        | some (j, i, word) => .ok { word, bitOffset := i, wordOffset := j, element := t.element + (63 - t.bitOffset) + ((j : Int) - t.wordOffset - 1) * 64 + i + 1 }
        | none => .ok { t with element := size }

/-- `bs-fip-finished-state?` (`bit-set.dylan:498-501,543-548`), with `bs-fip-limit`. -/
def fipFinished (s : State) (x : Nat) (t : Iter) : Bool :=
  (s.set x).pad == false && decide (t.element ≥ (s.heap.vec (s.set x).vec).size)

/-- The inner loops of the backward iteration (`bit-set.dylan:577-586,606-617,620-631`): the first bit from
    `i - 1` down, where `word` has been rotated so that bit `i` is its lowest. -/
def lastBit : Nat → W → Option (Nat × W)
  | 0, _ => none
  | i + 1, word =>
    if (word.rotateLeft 1 &&& 1#64) = 1#64 then some (i, word.rotateLeft 1) else lastBit i (word.rotateLeft 1)

/-- The outer loops of the backward iteration (`bit-set.dylan:575-587,618-632`): from word `j - 1` down. -/
def lastWord (h : Heap) (r : Nat) : Nat → Out (Option (Nat × Nat × W))
  | 0 => .ok none
  | j + 1 => (getW h r j).bind fun w =>
    match lastBit 64 w with
    | some (i, word) => .ok (some (j, i, word))
    | none => lastWord h r j

/-- `backward-iteration-protocol` and `bs-bip-initial-state` (`bit-set.dylan:569-594,646-662`). -/
def bipInitial (s : State) (x : Nat) : Out Iter :=
  if (s.set x).pad = true then .infinite
  else
    let r := (s.set x).vec
    (lastWord s.heap r (s.heap.vec r).wsize).bind fun found =>
      match found with
      | some (j, i, word) => .ok { word, wordOffset := j, bitOffset := i, element := (j : Int) * 64 + i }
      | none => .ok { word := 0#64, wordOffset := 0, bitOffset := -1, element := -1 }

/-- `bs-bip-next-state` (`bit-set.dylan:601-637`). -/
def bipNext (s : State) (x : Nat) (t : Iter) : Out Iter :=
  let r := (s.set x).vec
  match lastBit t.bitOffset.toNat t.word with
  | some (i, word) => .ok { t with word, bitOffset := i, element := t.element - (t.bitOffset - i) }
  | none =>
    (lastWord s.heap r t.wordOffset.toNat).bind fun found =>
      match found with
      | some (j, i, word) => .ok { word, bitOffset := i, wordOffset := j, element := t.element - t.bitOffset - (t.wordOffset - j - 1) * 64 - (64 - i) }
      | none => .ok { t with bitOffset := -1, wordOffset := -1, element := -1 }

/-- `bs-bip-finished-state?` (`bit-set.dylan:639-644`). -/
def bipFinished (t : Iter) : Bool := decide (t.element < 0)

end Verif.Bits
