/-
Model of `map-into` (`/repo/sources/dylan/collection.dylan:363-688`), with one collection.

Which method is called depends on the classes of the target and of the collection.  Where methods are
ambiguous the leftmost argument decides (`discrimination.dylan:926-975`).  Limitations: targets are lists,
vectors that cannot grow (strings and limited vectors too), stretchy vectors, deques and tables;
collections are lists, object vectors, other arrays, deques and tables.  The collection is not the target.
-/
import Verif.Iter.Model

namespace Verif.Iter

variable {α β : Type}

/-- Kinds of targets that are sequences. -/
inductive TKind where
  | list
  | array
  | stretchyArray
  | deque
  deriving DecidableEq

/-- Kinds of collections that are sequences. -/
inductive CKind where
  | list
  | objectVector
  | otherArray
  | deque
  deriving DecidableEq

/-- How they iterate. -/
def TKind.kind : TKind → Kind
  | .list => .list
  | .array => .vector
  | .stretchyArray => .vector
  | .deque => .deque

def CKind.kind : CKind → Kind
  | .list => .list
  | .objectVector => .vector
  | .otherArray => .vector
  | .deque => .deque

/-- Keys of tables: integers and other objects. -/
inductive Key where
  | int (i : Int)
  | other (n : Nat)
  deriving DecidableEq

/-- Both are sequences and the target cannot grow (`collection.dylan:648-658`): `for (state = ..., val in coll, until: ...)`. -/
def rigidLoop (f : α → β) (c : S α) (limit : Nat) : Nat → S β → Nat → Nat → Res (S β)
  | 0, _, _, _ => .loop
  | k + 1, t, st, cst =>
    if finishedS c cst (limitS c) then .ok t
    else if finishedS t st limit then .ok t
    else
      match curS c cst with
      | none => .outside
      | some v =>
        match setS t st (f v) with
        | none => .outside
        | some t' => rigidLoop f c limit k t' (nextS t' st) (nextS c cst)

/-- An array and a sequence (`collection.dylan:608-615`): `for (val in coll, key from 0 below target.size)`. -/
def rigidArray (f : α → β) (size : Nat) : List α → List β → Nat → List β
  | [], t, _ => t
  | v :: c, t, key => if key < size then rigidArray f size c (t.set key (f v)) (key + 1) else t

/-- Two arrays (`collection.dylan:679-688`): `n` steps from `i` on; `none`: an index is outside. -/
def rigidArrays (f : α → β) (c : List α) : Nat → List β → Nat → Option (List β)
  | 0, t, _ => some t
  | n + 1, t, i =>
    match c[i]? with
    | none => none
    | some v => if i < t.length then rigidArrays f c n (t.set i (f v)) (i + 1) else none

/-- An array and a table (`collection.dylan:596-606`). -/
def rigidArrayTable (f : α → β) (size : Nat) : Assoc Key α → List β → List β
  | [], t => t
  | (.other _, _) :: l, t => rigidArrayTable f size l t
  | (.int key, v) :: l, t => rigidArrayTable f size l (if key < 0 ∨ key ≥ size then t else t.set key.toNat (f v))

/-- `element-setter` of a stretchy vector: it grows if the index is beyond the end (`stretchy-vector.dylan`). -/
def growSet (blank : β) (t : List β) (i : Nat) (v : β) : List β :=
  if i < t.length then t.set i v else t ++ List.replicate (i - t.length) blank ++ [v]

/-- A stretchy vector and a sequence (`collection.dylan:516-521`). -/
def stretchyArray (blank : β) (f : α → β) : List α → List β → Nat → List β
  | [], t, _ => t
  | v :: c, t, key => stretchyArray blank f c (growSet blank t key (f v)) (key + 1)

/-- A stretchy vector and a table (`collection.dylan:505-512`). -/
def stretchyArrayTable (blank : β) (f : α → β) : Assoc Key α → List β → List β
  | [], t => t
  | (.other _, _) :: l, t => stretchyArrayTable blank f l t
  | (.int key, v) :: l, t => stretchyArrayTable blank f l (if key < 0 then t else growSet blank t key.toNat (f v))

/-- `size-setter` of a deque (`deque.dylan:227-255`); `off` is the index of its first element then. -/
def resize (off : Nat) (blank : β) (t : S β) (n : Nat) : S β := ⟨t.kind, t.items.take n ++ List.replicate (n - t.items.length) blank, off⟩

/-- The inner loop (`collection.dylan:480-485`): the target, and the state of the collection. -/
def restLoop (f : α → β) (c : S α) (limit : Nat) : Nat → S β → Nat → Nat → Res (S β × Nat)
  | 0, _, _, _ => .loop
  | k + 1, t, st, cst =>
    if finishedS t st limit then .ok (t, cst)
    else
      match curS c cst with
      | none => .outside
      | some v =>
        match setS t st (f v) with
        | none => .outside
        | some t' => restLoop f c limit k t' (nextS t' st) (nextS c cst)

/-- A deque and a sequence (`collection.dylan:459-497`).  When the target is full it is made larger and the
    inner loop does the rest; the outer loop then steps the state of the collection once more. -/
def stretchyLoop (off : Nat) (blank : β) (f : α → β) (c : S α) (limit : Nat) : Nat → S β → Nat → Nat → Nat → Res (S β)
  | 0, _, _, _, _ => .loop
  | k + 1, t, st, cst, key =>
    if finishedS c cst (limitS c) then .ok t
    else if finishedS t st limit then
      let t' := resize off blank t c.items.length
      match restLoop f c (limitS t') k t' (skipS t' key (initS t')) cst with
      | .ok (t'', cst') => stretchyLoop off blank f c limit k t'' st (nextS c cst') (key + 1)
      | .range => .range | .outside => .outside | .typeError => .typeError | .loop => .loop
    else
      match curS c cst with
      | none => .outside
      | some v =>
        match setS t st (f v) with
        | none => .outside
        | some t' => stretchyLoop off blank f c limit k t' (nextS t' st) (nextS c cst) (key + 1)

/-- `maximum-sequence-key` of a table (`explicit-key-collection.dylan:38-45`). -/
def maxKey : Assoc Key α → Int → Int
  | [], m => m
  | (.int k, _) :: l, m => maxKey l (max k m)
  | (.other _, _) :: l, m => maxKey l m

/-- The store in the loops of the next method (`collection.dylan:427-430`, `447-450`); `none`: it is outside. -/
def storeFound (f : α → β) (coll : Assoc Key α) (t : S β) (st : Nat) (key : Nat) : Option (S β) :=
  match assoc coll (.int key) with
  | none => some t
  | some v => setS t st (f v)

/-- The first loop (`collection.dylan:424-430`): the target and the key. -/
def tableLoop (f : α → β) (coll : Assoc Key α) (max : Int) (limit : Nat) : Nat → S β → Nat → Nat → Res (S β × Nat)
  | 0, _, _, _ => .loop
  | k + 1, t, st, key =>
    if (key : Int) > max then .ok (t, key)
    else if finishedS t st limit then .ok (t, key)
    else
      match storeFound f coll t st key with
      | none => .outside
      | some t' => tableLoop f coll max limit k t' (nextS t' st) (key + 1)

/-- The last loop (`collection.dylan:444-451`). -/
def tableRest (f : α → β) (coll : Assoc Key α) (max : Int) : Nat → S β → Nat → Nat → Res (S β)
  | 0, _, _, _ => .loop
  | k + 1, t, st, key =>
    if (key : Int) > max then .ok t
    else
      match storeFound f coll t st key with
      | none => .outside
      | some t' => tableRest f coll max k t' (nextS t' st) (key + 1)

/-- A deque and a table (`collection.dylan:418-457`). -/
def stretchyTable (fuel off : Nat) (blank : β) (f : α → β) (coll : Assoc Key α) (t : S β) : Res (S β) :=
  match tableLoop f coll (maxKey coll (-1)) (limitS t) fuel t (initS t) 0 with
  | .ok (t', key) =>
    if (key : Int) > maxKey coll (-1) then .ok t'
    else
      let t'' := resize off blank t' (maxKey coll (-1) + 1).toNat
      tableRest f coll (maxKey coll (-1)) fuel t'' (skipS t'' key (initS t'')) key
  | .range => .range | .outside => .outside | .typeError => .typeError | .loop => .loop

/-- `map-into` with a sequence (`collection.dylan:363-386`).  A list and an array that is not an object vector
    (`collection.dylan:633-644`): the method uses the iteration functions of the array with the list. -/
def mapInto (fuel off : Nat) (blank : β) (f : α → β) (tk : TKind) (t : S β) (ck : CKind) (c : S α) : Res (S β) :=
  match tk with
  | .list =>
    match ck with
    | .otherArray => if c.items = [] then .ok t else .typeError
    | _ => rigidLoop f c (limitS t) fuel t (initS t) (initS c)
  | .array =>
    match ck with
    | .objectVector | .otherArray =>
      match rigidArrays f c.items (min t.items.length c.items.length) t.items 0 with
      | none => .outside
      | some l => .ok { t with items := l }
    | _ => .ok { t with items := rigidArray f t.items.length c.items t.items 0 }
  | .stretchyArray => .ok { t with items := stretchyArray blank f c.items t.items 0 }
  | .deque => stretchyLoop off blank f c (limitS t) fuel t (initS t) (initS c) 0

/-- `map-into` with a table.  A list and a table (`collection.dylan:551-566`): the elements of the table are
    looked up with the states of the list, which are not keys of the table, so that nothing is stored. -/
def mapIntoTable (fuel off : Nat) (blank : β) (f : α → β) (tk : TKind) (t : S β) (coll : Assoc Key α) : Res (S β) :=
  match tk with
  | .list => .ok t
  | .array => .ok { t with items := rigidArrayTable f t.items.length coll t.items }
  | .stretchyArray => .ok { t with items := stretchyArrayTable blank f coll t.items }
  | .deque => stretchyTable fuel off blank f coll t

end Verif.Iter
