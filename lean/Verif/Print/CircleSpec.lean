import Verif.Print.Circle

/-
Objects and their parts, said without the printer.
-/

namespace Verif.Print

/-- The object `y` is a part of the object `x`: an element of a vector, or the head or the tail of a pair. -/
def Part (H : Heap) (x y : Nat) : Prop :=
  match H x with
  | .leaf _ => False
  | .empty => False
  | .pair h t => y = h ∨ y = t
  | .vector xs => y ∈ xs

/-- `y` can be reached from `x` by way of parts. -/
inductive Reach (H : Heap) (x : Nat) : Nat → Prop
  | self : Reach H x x
  | part {y z : Nat} (hy : Reach H x y) (hz : Part H y z) : Reach H x z

/-- There are finitely many objects to be reached from `x`. -/
def FiniteFrom (H : Heap) (x : Nat) : Prop := ∃ all : List Nat, ∀ y, Reach H x y → y ∈ all

/-- The number of a tag. -/
def Tok.tagNumber : Tok → Option Nat
  | .tag n _ => some n
  | _ => none

end Verif.Print
