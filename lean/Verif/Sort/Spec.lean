/-!
# What it means to sort
-/
namespace Verif.Sort

variable {α : Type}

/-- A strict weak order: what Dylan asks of the `test:` argument of `sort`. -/
structure StrictWeakOrder (lt : α → α → Bool) : Prop where
  irrefl : ∀ x, lt x x = false
  trans : ∀ x y z, lt x y = true → lt y z = true → lt x z = true
  /-- incomparability is transitive, stated as negative transitivity -/
  negTrans : ∀ x y z, lt x y = false → lt y z = false → lt x z = false

/-- No later element is less than an earlier one. -/
def Sorted (lt : α → α → Bool) (l : List α) : Prop := l.Pairwise fun x y => lt y x = false

/-- Equivalent under the order: neither is less than the other. -/
def equiv (lt : α → α → Bool) (x y : α) : Bool := !lt x y && !lt y x

/-- `new` sorts `old`. -/
structure SortOf (lt : α → α → Bool) (old new : List α) : Prop where
  perm : new.Perm old
  sorted : Sorted lt new

/-- `new` sorts `old`, keeping equivalent elements in their original order. -/
structure StableSortOf (lt : α → α → Bool) (old new : List α) : Prop extends SortOf lt old new where
  stable : ∀ x, new.filter (equiv lt x) = old.filter (equiv lt x)

end Verif.Sort
