/-!
# What the sequence functions should do
-/

namespace Verif.ClSeq

variable {α : Type}

/-- The part of a sequence between two indices. -/
def part (xs : List α) (start finish : Nat) : List α := (xs.drop start).take (finish - start)

/-- The elements after which there is none that is the same. -/
def lastOnes (same : α → α → Bool) : List α → List α
  | [] => []
  | x :: l => if l.any (same · x) then lastOnes same l else x :: lastOnes same l

/-- The elements before which there is none that is the same. -/
def firstOnes (same : α → α → Bool) (l : List α) : List α := (lastOnes same l.reverse).reverse

/-- An element at an index is meant. -/
def HitAt (hit : α → Bool) (xs : List α) (i : Nat) : Prop := ∃ x, xs[i]? = some x ∧ hit x = true

end Verif.ClSeq
