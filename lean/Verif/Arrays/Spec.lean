import Verif.Arrays.Model

/-
What the manual says of arrays, with no index computed: an array of dimensions `ds` is one variable for every list of
subscripts within the dimensions; `element` numbers these variables from 0 with the last subscript varying fastest.
-/

namespace Verif.Arrays.Spec

variable {α : Type}

/-- All the lists of subscripts within the dimensions, the last subscript varying fastest. -/
def tuples : List Int → List (List Int)
  | [] => [[]]
  | d :: ds => (List.range d.toNat).flatMap (fun (i : Nat) => (tuples ds).map (fun t => (i : Int) :: t))

/-- Each subscript is within its dimension. -/
def within : List Int → List Int → Bool
  | [], [] => true
  | d :: ds, i :: is => decide (0 ≤ i ∧ i < d) && within ds is
  | _, _ => false

/-- The abstract array: a value for each list of subscripts. -/
abbrev Vars (α : Type) := List Int → α

def put (f : Vars α) (s : List Int) (v : α) : Vars α := fun t => if t = s then v else f t

/-- The variable of that number. -/
def numbered (ds : List Int) (i : Int) : Option (List Int) := if i < 0 then none else (tuples ds)[i.toNat]?

/-- How wrong subscripts are refused. -/
def wrong (ds subs : List Int) : Option Err :=
  if subs.length ≠ ds.length then some .rank else if within ds subs then none else some .range

def step (ds : List Int) (f : Vars α) : Op α → Out α × Vars α
  | .aref subs =>
    match wrong ds subs with
    | some e => (.signals e, f)
    | none => (.value (f subs), f)
  | .arefSetter v subs =>
    match wrong ds subs with
    | some e => (.signals e, f)
    | none => (.value v, put f subs v)
  | .element i =>
    match numbered ds i with
    | none => (.signals .range, f)
    | some s => (.value (f s), f)
  | .elementSetter v i =>
    match numbered ds i with
    | none => (.signals .range, f)
    | some s => (.value v, put f s v)

def run (ds : List Int) (f : Vars α) : List (Op α) → List (Out α)
  | [] => []
  | o :: os => (step ds f o).1 :: run ds (step ds f o).2 os

/-- The number of variables. -/
def volume : List Int → Int
  | [] => 1
  | d :: ds => d * volume ds

end Verif.Arrays.Spec
