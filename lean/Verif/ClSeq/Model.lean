/-!
# Sequence functions in the manner of Common Lisp

`cl-position`, `cl-count`, `cl-substitute!`, `cl-remove!` and `cl-remove-duplicates!` of `sources/lib/cl/cl-sequences.dylan` (CS), in
the methods on sequences that are not lists; those on lists are not implemented there.  The functions with `-if` have the same loops.

Simplifications: `test:`, `key:` and the item are one function that says whether an element is meant, and for duplicates one that says
whether two elements are the same (the first argument is that of `test(tkey, test-key)`).  The start is not after the end, for which the
loops do not stop; `replace?:` is not given; the size can be set.
-/

namespace Verif.ClSeq

variable {α : Type}

/-- The indices in the order in which the loops visit them (CS:29-36, 238-246, 350-357, 496-503). -/
def idxs (start finish : Nat) (fromEnd : Bool) : List Nat :=
  if fromEnd then (List.range' start (finish - start)).reverse else List.range' start (finish - start)

/-- Is the element at an index meant? -/
def hitAt (hit : α → Bool) (xs : List α) (i : Nat) : Bool :=
  match xs[i]? with
  | some x => hit x
  | none => false

/-- `cl-position` (CS:20-45). -/
def position (hit : α → Bool) (xs : List α) (start finish : Nat) (fromEnd : Bool) : Option Nat :=
  (idxs start finish fromEnd).find? (hitAt hit xs)

/-- `cl-count` (CS:230-254). -/
def count (hit : α → Bool) (xs : List α) (start finish : Nat) (fromEnd : Bool) : Nat :=
  (idxs start finish fromEnd).foldl (fun n i => if hitAt hit xs i then n + 1 else n) 0

/-- `~count | positive?(count)` (CS:361-366, 507-512). -/
def allowed : Option Int → Bool
  | none => true
  | some k => decide (0 < k)

/-- `count := count - 1`. -/
def lower (k : Option Int) : Option Int := k.map (· - 1)

/-- One round of the loop of `cl-substitute!` (CS:504-515). -/
def substStep (hit : α → Bool) (new : α) (s : List α × Option Int) (i : Nat) : List α × Option Int :=
  if hitAt hit s.1 i then (if allowed s.2 then s.1.set i new else s.1, lower s.2) else s

/-- `cl-substitute!` (CS:488-518). -/
def substitute (hit : α → Bool) (new : α) (xs : List α) (start finish : Nat) (fromEnd : Bool) (k : Option Int) : List α :=
  ((idxs start finish fromEnd).foldl (substStep hit new) (xs, k)).1

/-- An element is stored at the output index, which is raised (CS:368-369, 633-634). -/
def keep (s : List α × Nat) (x : α) : List α × Nat := (s.1.set s.2 x, s.2 + 1)

/-- One round of the loop of `cl-remove!` (CS:358-371). -/
def removeStep (hit : α → Bool) (s : (List α × Nat) × Option Int) (i : Nat) : (List α × Nat) × Option Int :=
  match s.1.1[i]? with
  | none => s
  | some x => if hit x then s else (if allowed s.2 then keep s.1 x else s.1, lower s.2)

/-- `cl-remove!` (CS:341-378). -/
def remove (hit : α → Bool) (xs : List α) (start finish : Nat) (fromEnd : Bool) (k : Option Int) : List α :=
  let s := (idxs start finish fromEnd).foldl (removeStep hit) ((xs, start), k)
  s.1.1.take s.1.2

/-- Is there an element among some indices that is the same as the given one? -/
def anyAt (same : α → α → Bool) (cur : List α) (x : α) (l : List Nat) : Bool := l.any (hitAt (same · x) cur)

/-- Is the element at an index kept (CS:605-631)? -/
def single (same : α → α → Bool) (start finish : Nat) (fromEnd : Bool) (s : List α × Nat) (i : Nat) (x : α) : Bool :=
  decide (finish ≤ i) ||
    if fromEnd then !anyAt same s.1 x (List.range' start (s.2 - start))
    else !anyAt same s.1 x (List.range' (i + 1) (finish - (i + 1)))

/-- One round of the loop of `cl-remove-duplicates!` (CS:603-635). -/
def dupStep (same : α → α → Bool) (start finish : Nat) (fromEnd : Bool) (s : List α × Nat) (i : Nat) : List α × Nat :=
  match s.1[i]? with
  | none => s
  | some x => if single same start finish fromEnd s i x then keep s x else s

/-- `cl-remove-duplicates!` (CS:593-641). -/
def removeDuplicates (same : α → α → Bool) (xs : List α) (start finish : Nat) (fromEnd : Bool) : List α :=
  let s := (List.range' start (xs.length - start)).foldl (dupStep same start finish fromEnd) (xs, start)
  s.1.take s.2

end Verif.ClSeq
