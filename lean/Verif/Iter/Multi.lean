/-
Model of iteration over several collections at once (`/repo/sources/dylan/multiple-collection.dylan`), as
`do`, `map`, `map-as`, `map-into`, `any?`, `every?` and `fold` with several collections use it.

A sequence is the function from the number of steps of an iteration to the element there, `none` after the
end; unbounded ranges have no end.  The states of all sequences step together and are one number.
Simplifications: the check of the key tests is left out.
-/
import Verif.Iter.MapInto

namespace Verif.Iter

variable {α β κ : Type}

/-- A sequence. -/
abbrev Seq (α : Type) := Nat → Option α

/-! ### Sequences only -/

/-- The iteration of `<multiple-sequence>` (`multiple-collection.dylan:151-206`): it is finished when one of them is;
    the element is the vector of all elements.  The result is all elements, `none`: it goes on for ever. -/
def multiSeq (colls : List (Seq α)) : Nat → Nat → Option (List (List (Option α)))
  | 0, _ => none
  | k + 1, st =>
    if colls.any (fun c => (c st).isNone) then some []
    else (multiSeq colls k (st + 1)).map (fun rows => colls.map (fun c => c st) :: rows)

/-! ### Tables only -/

/-- `minimum-collection` (`multiple-collection.dylan:313-321`), the loop from `i` on. -/
def minLoop (sizes : List Nat) (i index minSize : Nat) : Nat :=
  match sizes with
  | [] => index
  | s :: sizes => if s < minSize then minLoop sizes (i + 1) i s else minLoop sizes (i + 1) index minSize

/-- `minimum-collection` (`multiple-collection.dylan:313-321`). -/
def minimumCollection (sizes : List Nat) : Nat :=
  match sizes with
  | [] => 0
  | s :: sizes => minLoop sizes 1 0 s

/-- The elements for a key of the collection number `index`, whose element is `v` (`multiple-collection.dylan:262-270`);
    `none`: one of the collections does not have it. -/
def commonRow [DecidableEq κ] (index : Nat) (key : κ) (v : α) : List (Assoc κ α) → Nat → Option (List α)
  | [], _ => some []
  | c :: colls, i =>
    if i = index then (commonRow index key v colls (i + 1)).map (v :: ·)
    else
      match assoc c key with
      | none => none
      | some x => (commonRow index key v colls (i + 1)).map (x :: ·)

/-- The iteration of `<multiple-explicit-key-collection>` (`multiple-collection.dylan:238-305`) over the elements of the
    collection with the fewest elements: the keys with the elements. -/
def multiTable [DecidableEq κ] (colls : List (Assoc κ α)) (index : Nat) : Assoc κ α → List (κ × List α)
  | [] => []
  | (key, v) :: rest =>
    match commonRow index key v colls 0 with
    | some row => (key, row) :: multiTable colls index rest
    | none => multiTable colls index rest

/-- All of it. -/
def multiTables [DecidableEq κ] (colls : List (Assoc κ α)) : List (κ × List α) :=
  let index := minimumCollection (colls.map List.length)
  multiTable colls index (colls.getD index [])

/-! ### Both -/

/-- A sequence or a table. -/
inductive Coll (α : Type) where
  | seq (s : Seq α)
  | table (t : Assoc Key α)

/-- `mixed-collection` (`multiple-collection.dylan:101-128`): the sequences and the tables, with their positions. -/
def splitColls : List (Coll α) → Nat → List (Nat × Seq α) × List (Nat × Assoc Key α)
  | [], _ => ([], [])
  | .seq s :: colls, i => ((i, s) :: (splitColls colls (i + 1)).1, (splitColls colls (i + 1)).2)
  | .table t :: colls, i => ((splitColls colls (i + 1)).1, (i, t) :: (splitColls colls (i + 1)).2)

/-- The loop over the tables (`multiple-collection.dylan:399-405`): the elements, and whether all have the key. -/
def fillTables (key : Nat) : List (Nat × Assoc Key α) → List (Option α) → List (Option α) × Bool
  | [], els => (els, true)
  | (i, t) :: l, els =>
    match assoc t (.int key) with
    | none => (els.set i none, false)
    | some v => fillTables key l (els.set i (some v))

/-- The loop over the sequences (`multiple-collection.dylan:407-410`). -/
def fillSeqs (st : Nat) : List (Nat × Seq α) → List (Option α) → List (Option α)
  | [], els => els
  | (i, s) :: l, els => fillSeqs st l (els.set i (s st))

/-- `finished?` (`multiple-collection.dylan:364-377`). -/
def finishedMixed (seqs : List (Nat × Seq α)) (bound : Int) (head st : Nat) : Bool :=
  decide ((head : Int) > bound) || seqs.any (fun p => (p.2 st).isNone)

/-- `skip-until-common` (`multiple-collection.dylan:386-417`): `finished?` looks at the key of the state, which is
    stored only after the loop. -/
def skipCommon (seqs : List (Nat × Seq α)) (tables : List (Nat × Assoc Key α)) (bound : Int) (head : Nat) : Nat → Nat → List (Option α) →
    Option (Nat × List (Option α))
  | 0, _, _ => none
  | k + 1, key, els =>
    if finishedMixed seqs bound head key then some (key, els)
    else
      let r := fillTables key tables els
      if r.2 then some (key, fillSeqs key seqs r.1) else skipCommon seqs tables bound head k (key + 1) r.1

/-- The iteration of `<multiple-mixed-collection>` (`multiple-collection.dylan:335-453`) from a state on; `none`: it goes on
    for ever. -/
def mixedLoop (seqs : List (Nat × Seq α)) (tables : List (Nat × Assoc Key α)) (bound : Int) (fuel : Nat) : Nat → Nat × List (Option α) → Option (List (Nat × List (Option α)))
  | 0, _ => none
  | k + 1, (key, els) =>
    if finishedMixed seqs bound key key then some []
    else
      match skipCommon seqs tables bound (key + 1) fuel (key + 1) els with
      | none => none
      | some st => (mixedLoop seqs tables bound fuel k st).map ((key, els) :: ·)

/-- All of it. -/
def multiMixed (fuel : Nat) (colls : List (Coll α)) : Option (List (Nat × List (Option α))) :=
  let seqs := (splitColls colls 0).1
  let tables := (splitColls colls 0).2
  let bound := maxKey ((tables.map (·.2)).getD (minimumCollection (tables.map (fun p => p.2.length))) []) (-1)
  match skipCommon seqs tables bound 0 fuel 0 (List.replicate (seqs.length + tables.length) none) with
  | none => none
  | some st => mixedLoop seqs tables bound fuel fuel st

end Verif.Iter
