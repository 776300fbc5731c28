/-
Arrays of any number of dimensions (sources/dylan/array.dylan, sources/dylan/multidimensional-array.dylan) and vectors
seen as arrays of one dimension (sources/dylan/vector.dylan 119-125, 184-197, 223-253).
-/

namespace Verif.Arrays

/-- What is signalled. -/
inductive Err where
  /-- `aref-rank-error` (array.dylan 60-70) and the errors of vectors (vector.dylan 191-194, 231-234). -/
  | rank
  /-- `element-range-error`. -/
  | range
  /-- Integer overflow. -/
  | overflow
  /-- No storage of that size can be allocated.  What the allocator does with a negative size is not modelled. -/
  | size
  /-- An argument of the wrong type. -/
  | type
deriving DecidableEq, Repr

/-- What a call leads to: a value, an error, or an access outside of the storage of the array, at that position. -/
inductive Out (α : Type) where
  | value (a : α)
  | signals (e : Err)
  | outside (index : Int)
deriving DecidableEq, Repr

/-- The integers of a 64-bit implementation: 62 bits and two tag bits. -/
def isWord (i : Int) : Bool := decide (-2305843009213693952 ≤ i ∧ i ≤ 2305843009213693951)

/-- `*` of integers. -/
def mulW (a b : Int) : Except Err Int := if isWord (a * b) then .ok (a * b) else .error .overflow

/-- `+` of integers. -/
def addW (a b : Int) : Except Err Int := if isWord (a + b) then .ok (a + b) else .error .overflow

/-- `interpret-integer-as-machine-word`: the tagged word. -/
def tag (i : Int) : BitVec 64 := BitVec.ofInt 64 (4 * i + 1)

/-- `element-range-check` (sources/dylan/sequence.dylan 725-733). -/
def rangeCheck (i below : Int) : Bool := (tag i).ult (tag below)

/-- The loop of `general-row-major-index` (array.dylan 72-84). -/
def generalLoop : Int → List Int → List Int → Except Err Int
  | sum, d :: ds, i :: is =>
    if rangeCheck i d then (mulW sum d).bind (fun p => (addW p i).bind (fun s => generalLoop s ds is))
    else .error .range
  | sum, _, _ => .ok sum

/-- `two-row-major-index` (array.dylan 86-100). -/
def twoIndex (d0 d1 i0 i1 : Int) : Except Err Int :=
  if rangeCheck i0 d0 && rangeCheck i1 d1 then (mulW i0 d1).bind (fun p => addW p i1) else .error .range

/-- `row-major-index` of arrays that are not vectors (array.dylan 102-114). -/
def rowMajorIndex (dims subs : List Int) : Except Err Int :=
  if dims.length ≠ subs.length then .error .rank
  else
    match dims, subs with
    | [d0, d1], [i0, i1] => twoIndex d0 d1 i0 i1
    | ds, is => generalLoop 0 ds is

/-- `row-major-index` of vectors (vector.dylan 188-197). -/
def vectorIndex (subs : List Int) : Except Err Int :=
  match subs with
  | [i] => .ok i
  | _ => .error .rank

/-- An array: a vector, or an instance of one of the classes `<simple-…-array>` with its `dimensions` and its repeated
slot (multidimensional-array.dylan 21-33). -/
structure Arr (α : Type) where
  isVector : Bool
  dims : List Int
  elems : List α
deriving DecidableEq, Repr

/-- `reduce(\*, 1, dimensions)`. -/
def product : Int → List Int → Except Err Int
  | p, [] => .ok p
  | p, d :: ds => (mulW p d).bind (fun q => product q ds)

/-- `compute-size-from-dimensions` (multidimensional-array.dylan 88-97). -/
def sizeFromDimensions (dims : List Int) : Except Err Int :=
  if dims.length = 0 then .ok 0 else product 1 dims

/-- The allocation of a repeated slot. -/
def allocate (α : Type) (n : Int) (fill : α) : Except Err (List α) :=
  if n < 0 then .error .size else .ok (List.replicate n.toNat fill)

/-- `make(<array>, dimensions: dims, fill: fill)` (array.dylan 161-179, multidimensional-array.dylan 8-12, 99-109,
133-141); the elements of `dims` are integers. -/
def make {α : Type} (dims : List Int) (fill : α) : Except Err (Arr α) :=
  if dims.length = 1 then (allocate α (dims.headD 0) fill).map (fun es => ⟨true, dims, es⟩)
  else (sizeFromDimensions dims).bind (fun n => (allocate α n fill).map (fun es => ⟨false, dims, es⟩))

variable {α : Type}

/-- The repeated slot read and written without a check. -/
def slotGet (a : Arr α) (i : Int) : Out α :=
  if i < 0 then .outside i
  else
    match a.elems[i.toNat]? with
    | some v => .value v
    | none => .outside i

def slotSet (v : α) (a : Arr α) (i : Int) : Out α × Arr α :=
  if i < 0 then (.outside i, a)
  else if i.toNat < a.elems.length then (.value v, { a with elems := a.elems.set i.toNat v })
  else (.outside i, a)

/-- `element` without a default (multidimensional-array.dylan 45-58; for vectors sources/dylan/vector.dylan 714-728 is
the same). -/
def element (a : Arr α) (i : Int) : Out α :=
  if rangeCheck i a.elems.length then slotGet a i else .signals .range

/-- `element-setter` (multidimensional-array.dylan 122-131; for vectors, vector.dylan 683-692, the test is that of `element`, which has the same
result as a size is not negative). -/
def elementSetter (v : α) (a : Arr α) (i : Int) : Out α × Arr α :=
  if 0 ≤ i ∧ i < a.elems.length then slotSet v a i else (.signals .range, a)

/-- `aref` (array.dylan 120-125: `element-no-bounds-check` at `row-major-index`; vector.dylan 227-236). -/
def aref (a : Arr α) (subs : List Int) : Out α :=
  if a.isVector then
    match subs with
    | [i] => element a i
    | _ => .signals .rank
  else
    match rowMajorIndex a.dims subs with
    | .ok i => slotGet a i
    | .error e => .signals e

/-- `aref-setter` (array.dylan 132-138, vector.dylan 243-253). -/
def arefSetter (v : α) (a : Arr α) (subs : List Int) : Out α × Arr α :=
  if a.isVector then
    match subs with
    | [i] => elementSetter v a i
    | _ => (.signals .rank, a)
  else
    match rowMajorIndex a.dims subs with
    | .ok i => slotSet v a i
    | .error e => (.signals e, a)

/-- `size`: the size of the repeated slot (multidimensional-array.dylan 30). -/
def size (a : Arr α) : Int := a.elems.length

/-- The loop of `shallow-copy` (array.dylan 194-196): the number of keys left, the key, the copy. -/
def copyLoop (a : Arr α) : Nat → Int → Arr α → Out (Arr α)
  | 0, _, new => .value new
  | n + 1, key, new =>
    match element a key with
    | .value v =>
      match elementSetter v new key with
      | (.value _, new) => copyLoop a n (key + 1) new
      | (.signals e, _) => .signals e
      | (.outside i, _) => .outside i
    | .signals e => .signals e
    | .outside i => .outside i

/-- `shallow-copy` of an array that is not a vector (array.dylan 185-199).  In the branch for empty arrays `dimensions` is
the generic function, as the variable of that name is bound in the other branch only: `make` of `<array>` asks for its
size. -/
def shallowCopy (a : Arr α) : Out (Arr α) :=
  if size a = 0 then .signals .type
  else
    match element a 0 with
    | .value v =>
      match make a.dims v with
      | .ok new => copyLoop a a.elems.length 0 new
      | .error e => .signals e
    | .signals e => .signals e
    | .outside i => .outside i

/-- What is done with an array. -/
inductive Op (α : Type) where
  | aref (subs : List Int)
  | arefSetter (v : α) (subs : List Int)
  | element (i : Int)
  | elementSetter (v : α) (i : Int)

/-- One call. -/
def step (a : Arr α) : Op α → Out α × Arr α
  | .aref subs => (Arrays.aref a subs, a)
  | .arefSetter v subs => Arrays.arefSetter v a subs
  | .element i => (Arrays.element a i, a)
  | .elementSetter v i => Arrays.elementSetter v a i

/-- One call after the other: what each led to. -/
def run (a : Arr α) : List (Op α) → List (Out α)
  | [] => []
  | o :: os => (step a o).1 :: run (step a o).2 os

end Verif.Arrays
