/-!
# Stretchy vectors

A stretchy vector holds a representation: a number of elements `%size` and a repeated slot with room
for more.  The slot is written and read without bounds checks, so a slot index out of range is memory
corruption and is the outcome `memory` here.

Models `sources/dylan/stretchy-vector.dylan` and `sources/dylan/limited-stretchy-vector.dylan`.  The
macro `limited-stretchy-vector-minus-constructor` gives the same code to each element type; the model
takes the type as a test `ok` and its default fill as `dflt`.  Running out of memory and the
overflow of sizes beyond the integers are not modelled.
-/
namespace Verif.Stretchy

variable {α : Type}

/-- What a call does besides returning: signal an error of a class, corrupt memory, or loop. -/
inductive Fail
  | invalidIndex | naturalNumber | typeError | capacitySize | memory | loop
  deriving DecidableEq, Repr

/-- `<limited-stretchy-vector-representation>` (stretchy-vector.dylan 113-115) with the repeated slot
of the macro (270-277): `size` is `%size`, and the length of `slots` is what the slot's size getter
`size` answers. -/
structure Rep (α : Type) where
  size : Nat
  slots : List α
  deriving DecidableEq, Repr

/-- `stretchy-vector-element` (stretchy-vector.dylan 283-287): no check. -/
def slot (slots : List α) (i : Nat) : Except Fail α :=
  match slots[i]? with
  | some x => .ok x
  | none => .error .memory

/-- `stretchy-vector-element-setter` (stretchy-vector.dylan 289-294): no check. -/
def slotSet (slots : List α) (i : Nat) (x : α) : Except Fail (List α) :=
  if i < slots.length then .ok (slots.set i x) else .error .memory

/-- `power-of-two-ceiling` (integer.dylan 446-454): the search, for at most `fuel` rounds. -/
def powerSearch (value : Nat) : Nat → Nat → Except Fail Nat
  | 0, _ => .error .loop
  | fuel + 1, p => if p ≥ value then .ok p else powerSearch value fuel (p + p)

/-- The call `power-of-two-ceiling(value)`; `value + 1` rounds are enough, see
`powerOfTwoCeiling_spec`. -/
def powerOfTwoCeiling (value : Nat) : Except Fail Nat := powerSearch value (value + 1) 1

/-- `for (i from i below i + n) stretchy-vector-element(nv, i) := stretchy-vector-element(v, i)`
(stretchy-vector.dylan 193-194). -/
def copyLoop (v : List α) : Nat → Nat → List α → Except Fail (List α)
  | 0, _, nv => .ok nv
  | n + 1, i, nv => do
    let x ← slot v i
    let nv ← slotSet nv i x
    copyLoop v n (i + 1) nv

/-- `for (j from j below j + n) stretchy-vector-element(v, j) := fill` (stretchy-vector.dylan 196-198,
205-207, 247-249). -/
def fillLoop (x : α) : Nat → Nat → List α → Except Fail (List α)
  | 0, _, v => .ok v
  | n + 1, j, v => do
    let v ← slotSet v j x
    fillLoop x n (j + 1) v

/-- `trusted-size-setter` (stretchy-vector.dylan 183-212). -/
def trustedSizeSetter (dflt : α) (newSize : Nat) (v : Rep α) : Except Fail (Rep α) :=
  if newSize > v.slots.length then do
    let capacity ← powerOfTwoCeiling newSize
    let nv ← copyLoop v.slots v.size 0 (List.replicate capacity dflt)
    let nv ← fillLoop dflt (newSize - v.size) v.size nv
    .ok ⟨newSize, nv⟩
  else if newSize < v.size then do
    let slots ← fillLoop dflt (v.size - newSize) newSize v.slots
    .ok ⟨newSize, slots⟩
  else .ok ⟨newSize, v.slots⟩

/-- The state of a vector and the value or failure of a call on it.  A failing call may have changed
the vector. -/
abbrev Result (α β : Type) := Rep α × Except Fail β

/-- Runs an update of the vector; if it fails the vector is as before. -/
def update (v : Rep α) (e : Except Fail (Rep α)) : Result α Unit :=
  match e with
  | .ok v' => (v', .ok ())
  | .error f => (v, .error f)

/-- `size-setter` (stretchy-vector.dylan 214-219) with `check-nat` (collection.dylan 1077-1083). -/
def sizeSetter (dflt : α) (newSize : Int) (v : Rep α) : Result α Unit :=
  if newSize < 0 then (v, .error .naturalNumber)
  else update v (trustedSizeSetter dflt newSize.toNat v)

/-- The second half of `add!` and of `element-setter`: the store without bounds check. -/
def store (v : Rep α) (i : Nat) (x : α) : Result α Unit :=
  update v ((slotSet v.slots i x).map fun s => ⟨v.size, s⟩)

/-- `add!` (stretchy-vector.dylan 166-175): the vector is made longer before the type of the new
element is checked. -/
def add (ok : α → Bool) (dflt : α) (v : Rep α) (x : α) : Result α Unit :=
  match trustedSizeSetter dflt (v.size + 1) v with
  | .error f => (v, .error f)
  | .ok v' => if ok x then store v' v.size x else (v', .error .typeError)

/-- `element` (stretchy-vector.dylan 320-335). The range check is `element-range-check`
(sequence.dylan 707-714), which compares as unsigned words: the same as `0 <= index < size`. -/
def element (ok : α → Bool) (v : Rep α) (index : Int) (default : Option α) : Except Fail α :=
  if 0 ≤ index ∧ index < v.size then slot v.slots index.toNat
  else match default with
    | none => .error .invalidIndex
    | some d => if ok d then .ok d else .error .typeError

/-- `element-setter` (limited-stretchy-vector.dylan 46-63; without the type check, which dispatch does
then, stretchy-vector.dylan 561-580). -/
def elementSetter (ok : α → Bool) (dflt : α) (x : α) (v : Rep α) (index : Int) : Result α Unit :=
  if ok x = false then (v, .error .typeError)
  else if index < 0 then (v, .error .invalidIndex)
  else if index ≥ v.size then
    match trustedSizeSetter dflt (index.toNat + 1) v with
    | .error f => (v, .error f)
    | .ok v' => store v' index.toNat x
  else store v index.toNat x

/-- The loop `grovel` of `remove!` (stretchy-vector.dylan 234-252); `n` is the number of elements still
to look at. Answers the slots and `dst-index`. -/
def grovel (test : α → Bool) : Nat → Int → Nat → Nat → List α → Except Fail (List α × Nat)
  | 0, _, _, dst, src => .ok (src, dst)
  | n + 1, count, srcIndex, dst, src => do
    let item ← slot src srcIndex
    if count > 0 ∧ test item then grovel test n (count - 1) (srcIndex + 1) dst src
    else do
      let src ← slotSet src dst item
      grovel test n count (srcIndex + 1) (dst + 1) src

/-- `remove!` (stretchy-vector.dylan 225-254); `test` is the test with the target given. A test that
itself changes the vector is not modelled. -/
def remove (dflt : α) (v : Rep α) (test : α → Bool) (count : Option Int) : Result α Unit :=
  update v do
    let (slots, dst) ← grovel test v.size (count.getD v.size) 0 0 v.slots
    let slots ← fillLoop dflt (v.size - dst) dst slots
    .ok ⟨dst, slots⟩

/-- `stretchy-initialize` (stretchy-vector.dylan 522-540) and `initialize`
(limited-stretchy-vector.dylan 16-27, stretchy-vector.dylan 547-555), `make` with the keywords `size:`,
`capacity:` and `fill:`. -/
def make (ok : α → Bool) (size : Int) (capacity : Option Int) (fill : α) :
    Except Fail (Rep α) :=
  let capacity := capacity.getD size
  if size ≠ 0 ∧ ok fill = false then .error .typeError
  else if size < 0 ∨ capacity < 0 then .error .naturalNumber
  else if capacity < size then .error .capacitySize
  else if capacity > 0 then .ok ⟨size.toNat, List.replicate capacity.toNat fill⟩
  else .ok ⟨0, []⟩

/-- The elements an iteration over the vector shows (stretchy-vector.dylan 456-473): the slots from 0
below the size, for `n` steps. -/
def elementsFrom (v : Rep α) : Nat → Nat → Except Fail (List α)
  | 0, _ => .ok []
  | n + 1, i => do
    let x ← slot v.slots i
    let xs ← elementsFrom v n (i + 1)
    .ok (x :: xs)

/-- `as(<list>, vector)`: all elements by iteration. -/
def elements (v : Rep α) : Except Fail (List α) := elementsFrom v v.size 0

/-- `as(<stretchy-vector>, collection)` (stretchy-vector.dylan 496-505). -/
def asLoop (ok : α → Bool) (dflt : α) : List α → Rep α → Result α Unit
  | [], v => (v, .ok ())
  | x :: xs, v =>
    match add ok dflt v x with
    | (v, .ok _) => asLoop ok dflt xs v
    | (v, .error f) => (v, .error f)

/-- A call on a stretchy vector. -/
inductive Op (α : Type)
  | add (x : α)
  | setSize (n : Int)
  | set (i : Int) (x : α)
  | get (i : Int) (default : Option α)
  | remove (test : α → Bool) (count : Option Int)
  | size
  | all

/-- What a call answers. -/
inductive Out (α : Type)
  | unit
  | val (x : α)
  | num (n : Nat)
  | list (l : List α)
  | fail (f : Fail)
  deriving DecidableEq, Repr

/-- The answer of a call of no interesting value. -/
def outUnit : Except Fail Unit → Out α
  | .ok _ => .unit
  | .error f => .fail f

/-- Performs a call. -/
def step (ok : α → Bool) (dflt : α) (v : Rep α) : Op α → Out α × Rep α
  | .add x => let r := add ok dflt v x; (outUnit r.2, r.1)
  | .setSize n => let r := sizeSetter dflt n v; (outUnit r.2, r.1)
  | .set i x => let r := elementSetter ok dflt x v i; (outUnit r.2, r.1)
  | .get i d => (match element ok v i d with
      | .ok x => .val x
      | .error f => .fail f, v)
  | .remove t c => let r := remove dflt v t c; (outUnit r.2, r.1)
  | .size => (.num v.size, v)
  | .all => (match elements v with
      | .ok l => .list l
      | .error f => .fail f, v)

/-- Performs a history of calls. -/
def run (ok : α → Bool) (dflt : α) : Rep α → List (Op α) → List (Out α) × Rep α
  | v, [] => ([], v)
  | v, op :: ops =>
    let (o, v') := step ok dflt v op
    let (os, v'') := run ok dflt v' ops
    (o :: os, v'')

end Verif.Stretchy
