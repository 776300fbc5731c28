import Verif.Range.Model
/-
What a user sees of a range, stated through `size` and `element` only.
-/
namespace Verif.Range

/-- The range is the sequence `f 0, f 1, …`, of `n` elements or without end. -/
def Behaves (r : Rng) (f : Nat → Int) (n : Option Nat) : Prop :=
  size r = n.map Int.ofNat ∧
  ∀ k : Nat, element r k = if (∀ m, n = some m → k < m) then .ok (f k) else .err .range

/-- The range has exactly the elements of the list, in order. -/
def Is (r : Rng) (l : List Int) : Prop :=
  size r = some (l.length : Int) ∧
  ∀ k : Nat, element r k = match l[k]? with | some x => .ok x | none => .err .range

/-- Some element equals `x`. -/
def Contains (r : Rng) (x : Int) : Prop := ∃ k : Nat, element r k = .ok x

/-- Negative keys are errors. -/
def RejectsNegative (r : Rng) : Prop := ∀ key : Int, key < 0 → element r key = .err .range

/-- The bounds of `make`, for a term `x`: `to:` is inclusive in the direction of the step, `below:` and
`above:` are exclusive. -/
def Allowed (a : Args) (x : Int) : Prop :=
  (∀ t, a.upTo = some t → if 0 < a.step then x ≤ t else t ≤ x) ∧
  (∀ b, a.below = some b → x < b) ∧ (∀ b, a.above = some b → b < x)

/-- `n` is the length the arguments ask for: the terms `start + k * step` up to the first one outside
the bounds, and no more than `size:` of them. -/
def Wanted (a : Args) (n : Option Nat) : Prop :=
  ∀ k : Nat, (∀ m, n = some m → k < m) ↔
    (∀ j : Nat, j ≤ k → Allowed a (a.start + j * a.step)) ∧ (∀ s, a.size = some s → (k : Int) < s)

/-- `make` does what the arguments ask for. -/
def MakeRight (a : Args) : Prop :=
  ∃ r n, make a = .ok r ∧ Wanted a n ∧ Behaves r (fun k => a.start + k * a.step) n

/-- The ranges with a step and a size that `make` gives for sensible arguments: the step of a finite or
infinite range is not 0, and sizes are not negative (positive for a finite range). -/
def Proper : Rng → Prop
  | .empty => True
  | .constant _ s => ∀ n, s = some n → 0 ≤ n
  | .finite _ b n => b ≠ 0 ∧ 1 ≤ n
  | .infinite _ b => b ≠ 0

/-- Not a constant range of size 0 (which is not an `<empty-range>`). -/
def NotHollow (r : Rng) : Prop := ∀ f, r ≠ .constant f (some 0)

/-- Same elements in the same order, and the same size. -/
def Same (r1 r2 : Rng) : Prop := size r1 = size r2 ∧ ∀ k : Nat, element r1 k = element r2 k

/-- The contents of the result of an operation that returns a range or a list. -/
def Res.Is : Res → List Int → Prop
  | .rng r, l => Range.Is r l
  | .list l', l => l' = l

/-- The elements without the first `count` occurrences of `x` (without any if there is no count). -/
def without (x : Int) : Option Nat → List Int → List Int
  | _, [] => []
  | none, y :: l => if y = x then without x none l else y :: without x none l
  | some 0, y :: l => y :: l
  | some (c + 1), y :: l => if y = x then without x (some c) l else y :: without x (some (c + 1)) l

end Verif.Range
