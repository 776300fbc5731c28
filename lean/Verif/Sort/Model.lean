/-!
# Model of `sources/dylan/sort.dylan`

Vectors are lists with explicit index arithmetic.  All loops here run `without-bounds-checks`, so an
access outside the vector is undefined behaviour: the distinct outcome `oob`.  Loops and recursions
whose termination is not evident take a `fuel` argument and give the distinct outcome `diverge` when
it runs out; that the fuel passed suffices is part of the theorems.

Not modelled: coercion of other sequences to a vector and back (lines 474-481), and the integer
overflow of index arithmetic.
-/
namespace Verif.Sort

/-- Outcome of a computation. -/
inductive Res (β : Type) where
  | ok (b : β)
  /-- an access outside the vector (undefined behaviour) -/
  | oob
  /-- did not finish within the fuel -/
  | diverge
  /-- `element-range-error` was signalled -/
  | rangeError
  deriving DecidableEq, Repr

namespace Res
def bind {β γ : Type} : Res β → (β → Res γ) → Res γ
  | .ok b, f => f b
  | .oob, _ => .oob
  | .diverge, _ => .diverge
  | .rangeError, _ => .rangeError

instance : Monad Res where
  pure := .ok
  bind := Res.bind
end Res

variable {α : Type}

/-- Reading `vector[i]` without bounds check. -/
def rd (v : List α) (i : Nat) : Res α :=
  match v[i]? with
  | some x => .ok x
  | none => .oob

/-- Writing `vector[i] := x` without bounds check. -/
def wr (v : List α) (i : Nat) (x : α) : Res (List α) :=
  if i < v.length then .ok (v.set i x) else .oob

/-- sort.dylan lines 63-71: `sort-range-check` (indices are naturals here, so the tests for
negative arguments are not needed). -/
def rangeCheck (size start stop : Nat) : Res Unit :=
  if start > size then .rangeError
  else if stop > size then .rangeError
  else .ok ()

/-- sort.dylan lines 78-86: `primitive-swap-elements!`. -/
def swap (v : List α) (k1 k2 : Nat) : Res (List α) := do
  let e1 ← rd v k1
  let e2 ← rd v k2
  let v ← wr v k1 e2
  wr v k2 e1

/-- sort.dylan lines 117-122: the inner loop of `primitive-insertion-sort!`, where
`n = insert-key + 1 - start` elements of the sorted part are still to be compared, so that
`insert-key + 1 = start + n`. -/
def insertLoop (lt : α → α → Bool) (start : Nat) (cur : α) : Nat → List α → Res (List α)
  | 0, v => wr v start cur
  | n + 1, v => do
    let y ← rd v (start + n)
    if lt cur y then do
      let v ← wr v (start + n + 1) y
      insertLoop lt start cur n v
    else wr v (start + n + 1) cur

/-- sort.dylan lines 115-123: the outer loop of `primitive-insertion-sort!`; `todo` keys
`current-key, ..., end - 1` remain. -/
def insertionOuter (lt : α → α → Bool) (start : Nat) : Nat → Nat → List α → Res (List α)
  | 0, _, v => .ok v
  | todo + 1, cur, v => do
    let c ← rd v cur
    let v ← insertLoop lt start c (cur - start) v
    insertionOuter lt start todo (cur + 1) v

/-- sort.dylan lines 108-126: `primitive-insertion-sort!`. -/
def insertionSort (lt : α → α → Bool) (v : List α) (start stop : Nat) : Res (List α) := do
  rangeCheck v.length start stop
  insertionOuter lt start (stop - (start + 1)) (start + 1) v

/-- sort.dylan line 158: `$small-sort-size`. -/
def smallSortSize : Nat := 10

/-- sort.dylan lines 198-213: the merging loop of `primitive-merge!`; `n` iterations remain, `acc`
is the filled part of the merge vector. -/
def mergeLoop (lt : α → α → Bool) (v : List α) (middle stop : Nat) :
    Nat → Nat → Nat → List α → Res (List α)
  | 0, _, _, acc => .ok acc
  | n + 1, startKey, middleKey, acc =>
    if startKey ≥ middle then do
      let x ← rd v middleKey
      mergeLoop lt v middle stop n startKey (middleKey + 1) (acc ++ [x])
    else if middleKey ≥ stop then do
      let x ← rd v startKey
      mergeLoop lt v middle stop n (startKey + 1) middleKey (acc ++ [x])
    else do
      let y ← rd v middleKey
      let x ← rd v startKey
      if lt y x then mergeLoop lt v middle stop n startKey (middleKey + 1) (acc ++ [y])
      else mergeLoop lt v middle stop n (startKey + 1) middleKey (acc ++ [x])

/-- sort.dylan lines 214-217: copying the merge vector back. -/
def copyBack : List α → Nat → List α → Res (List α)
  | [], _, v => .ok v
  | x :: xs, k, v => do
    let v ← wr v k x
    copyBack xs (k + 1) v

/-- sort.dylan lines 189-219: `primitive-merge!`. -/
def merge (lt : α → α → Bool) (v : List α) (start middle stop : Nat) : Res (List α) := do
  let mv ← mergeLoop lt v middle stop (stop - start) start middle []
  copyBack mv start v

/-- sort.dylan lines 253-274: `primitive-merge-sort!`. -/
def mergeSort (lt : α → α → Bool) : Nat → List α → Nat → Nat → Res (List α)
  | 0, _, _, _ => .diverge
  | fuel + 1, v, start, stop => do
    rangeCheck v.length start stop
    let length := stop - start
    if length < smallSortSize then insertionSort lt v start stop
    else if length > 1 then do
      let middle := start + length / 2
      let v ← mergeSort lt fuel v start middle
      let v ← mergeSort lt fuel v middle stop
      merge lt v start middle stop
    else .ok v

/-- sort.dylan lines 314-337: `primitive-median-of-three`. -/
def medianOfThree (lt : α → α → Bool) (v : List α) (start stop : Nat) : Res Nat := do
  let middle := (start + stop) / 2
  let s ← rd v start
  let e ← rd v (stop - 1)
  let m ← rd v middle
  if lt s e then
    if lt m e then .ok middle else .ok stop
  else
    if lt m s then .ok middle else .ok start

/-- sort.dylan lines 378-380: the upward scan of `primitive-partition!`. -/
def scanUp (lt : α → α → Bool) (v : List α) (pivot : α) : Nat → Nat → Res Nat
  | 0, _ => .diverge
  | fuel + 1, small => do
    let x ← rd v small
    if lt x pivot then scanUp lt v pivot fuel (small + 1) else .ok small

/-- sort.dylan lines 381-383: the downward scan; the key `-1` is outside every vector. -/
def scanDown (lt : α → α → Bool) (v : List α) (pivot : α) : Nat → Res Nat
  | 0 => do
    let x ← rd v 0
    if lt pivot x then .oob else .ok 0
  | large + 1 => do
    let x ← rd v (large + 1)
    if lt pivot x then scanDown lt v pivot large else .ok (large + 1)

/-- sort.dylan lines 377-390: the main loop of `primitive-partition!`. -/
def partitionLoop (lt : α → α → Bool) (pivot : α) : Nat → List α → Nat → Nat → Res (List α × Nat)
  | 0, _, _, _ => .diverge
  | fuel + 1, v, small, large => do
    let small ← scanUp lt v pivot (v.length + 1) small
    let large ← scanDown lt v pivot large
    if small < large then do
      let v ← swap v small large
      partitionLoop lt pivot fuel v (small + 1) (large - 1)
    else .ok (v, small)

/-- sort.dylan lines 368-394: `primitive-partition!`. -/
def partition (lt : α → α → Bool) (v : List α) (start stop : Nat) : Res (List α × Nat) := do
  let pivotKey ← medianOfThree lt v start (stop - 1)
  let pivot ← rd v pivotKey
  partitionLoop lt pivot (v.length + 1) v start (stop - 1)

/-- sort.dylan lines 424-441: `primitive-quick-sort!`. -/
def quickSort (lt : α → α → Bool) : Nat → List α → Nat → Nat → Res (List α)
  | 0, _, _, _ => .diverge
  | fuel + 1, v, start, stop => do
    rangeCheck v.length start stop
    let length := stop - start
    if length < smallSortSize then insertionSort lt v start stop
    else if length > 1 then do
      let (v, middle) ← partition lt v start stop
      let v ← quickSort lt fuel v start middle
      quickSort lt fuel v middle stop
    else .ok v

/-- sort.dylan lines 463-471: `sort!` on vectors.  The fuel is one more than the length; the
theorems show that it suffices. -/
def sort (lt : α → α → Bool) (stable : Bool) (v : List α) : Res (List α) :=
  if stable then mergeSort lt (v.length + 1) v 0 v.length
  else quickSort lt (v.length + 1) v 0 v.length

end Verif.Sort
