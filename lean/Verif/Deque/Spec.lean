import Verif.Deque.Model
/-!
# What a deque is: a finite sequence with two ends

Written over `List` only; the types `Op` and `Out` are the vocabulary of operations and results.
-/
namespace Verif.Deque

variable {α : Type}

/-- Delete the `k` leftmost elements satisfying `p`. -/
def removeUpTo (p : α → Bool) : Nat → List α → List α
  | 0, l => l
  | _, [] => []
  | k + 1, x :: xs => if p x then removeUpTo p k xs else x :: removeUpTo p (k + 1) xs

/-- One operation on a mathematical sequence; `no` is the padding element (`#f`). -/
def seqStep (no : α) (l : List α) : Op α → Out α × List α
  | .push x => (.unit, x :: l)
  | .pushLast x => (.unit, l ++ [x])
  | .pop =>
    match l with
    | [] => (.emptyError, [])
    | x :: xs => (.val x, xs)
  | .popLast =>
    match l.getLast? with
    | none => (.emptyError, l)
    | some x => (.val x, l.dropLast)
  | .size => (.num l.length, l)
  | .isEmpty => (.bool l.isEmpty, l)
  | .element i d =>
    match (if i < 0 then none else l[i.toNat]?), d with
    | some x, _ => (.val x, l)
    | none, some x => (.val x, l)
    | none, none => (.rangeError, l)
  | .setElement x i =>
    if i < 0 then (.rangeError, l)
    else if i.toNat < l.length then (.unit, l.set i.toNat x)
    else (.unit, l ++ List.replicate (i.toNat - l.length) no ++ [x])
  | .setSize n =>
    if n < 0 then (.natError, l)
    else (.unit, l.take n.toNat ++ List.replicate (n.toNat - l.length) no)
  | .remove p none => (.unit, l.filter fun x => !p x)
  | .remove p (some k) => (.unit, removeUpTo p k.toNat l)
  | .reverse => (.unit, l.reverse)
  | .copy => (.unit, l)

/-- A history on a mathematical sequence. -/
def seqRun (no : α) : List α → List (Op α) → List (Out α) × List α
  | l, [] => ([], l)
  | l, op :: ops =>
    let (o, l) := seqStep no l op
    let (os, l) := seqRun no l ops
    (o :: os, l)

/-- The keys and elements of a sequence, in order. -/
def keyed (l : List α) : List (Int × α) := l.zipIdx.map fun (x, i) => ((i : Int), x)

end Verif.Deque
