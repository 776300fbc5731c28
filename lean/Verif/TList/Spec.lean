import Verif.TList.Model

/-!
# What the operations of a deque should do

A state says for each list which elements it has, or that it must no longer be used, because it was appended to another one.
-/

namespace Verif.TList

variable {α : Type}

/-- The elements of the lists. -/
abbrev Elems (α : Type) := Nat → Option (List α)

/-- An element, or an error if there is none. -/
def valOr : Option α → Out α
  | some x => .val x
  | none => .err

/-- An operation on a list of which the elements are known. -/
def specOn (xs : List α) : Op α → List α × Out α
  | .push _ x => (x :: xs, .val x)
  | .pushLast _ x => (xs ++ [x], .val x)
  | .pop _ => (xs.tail, valOr xs.head?)
  | .popLast _ => (xs.dropLast, valOr xs.getLast?)
  | .size _ => (xs, .num xs.length)
  | .get _ n => (xs, valOr xs[n]?)
  | .set _ n x => (xs.set n x, if n < xs.length then .val x else .err)
  | .getLast _ => (xs, valOr xs.getLast?)
  | .setLast _ x => (if xs = [] then [] else xs.dropLast ++ [x], if xs = [] then .err else .val x)
  | .append _ _ => (xs, .done)

/-- The list that an operation is about. -/
def Op.list : Op α → Nat
  | .push i _ | .pushLast i _ | .pop i | .popLast i | .append i _ | .size i | .get i _ | .set i _ _ | .getLast i | .setLast i _ => i

/-- The operations; `append!` uses the second list up. -/
def spec (m : Elems α) (o : Op α) : Elems α × Out α :=
  match o with
  | .append i j => (update (update m i (some ((m i).getD [] ++ (m j).getD []))) j none, .done)
  | o => (update m o.list (some (specOn ((m o.list).getD []) o).1), (specOn ((m o.list).getD []) o).2)

def specRun (m : Elems α) : List (Op α) → Elems α × List (Out α)
  | [] => (m, [])
  | o :: l => ((specRun (spec m o).1 l).1, (spec m o).2 :: (specRun (spec m o).1 l).2)

/-- What is asked of an operation: the lists may be used, no list is appended to itself, and no element just behind the end of a list
of three or more elements is used. -/
def Legal (m : Elems α) : Op α → Prop
  | .append i j => i ≠ j ∧ m i ≠ none ∧ m j ≠ none
  | .get i n => ∃ xs, m i = some xs ∧ (n ≠ xs.length ∨ n < 3)
  | .set i n _ => ∃ xs, m i = some xs ∧ (n ≠ xs.length ∨ n < 3)
  | o => m o.list ≠ none

def AllLegal (m : Elems α) : List (Op α) → Prop
  | [] => True
  | o :: l => Legal m o ∧ AllLegal (spec m o).1 l

end Verif.TList
