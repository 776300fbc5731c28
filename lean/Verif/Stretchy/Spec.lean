import Verif.Stretchy.Model
/-!
# What a stretchy vector is to its user

A sequence of elements that can be made longer.  `P` are the values new elements may have that the
program has not stored: the default of the element type, and the `fill:` the vector was made with.
-/
namespace Verif.Stretchy.Spec
open Verif.Stretchy

variable {α : Type}

/-- `l'` is `l` made `n` elements long: cut off, or followed by elements in `P`. -/
def Resized (P : α → Prop) (l : List α) (n : Nat) (l' : List α) : Prop :=
  ∃ new, l' = l.take n ++ new ∧ new.length = n - l.length ∧ ∀ x ∈ new, P x

/-- `l` without the first `count` elements that satisfy the test. -/
def removeFirst (test : α → Bool) : Nat → List α → List α
  | _, [] => []
  | 0, l => l
  | c + 1, x :: l => if test x then removeFirst test c l else x :: removeFirst test (c + 1) l

/-- The effect of a call on a sequence. -/
inductive Step (P : α → Prop) (ok : α → Bool) : List α → Op α → Out α → List α → Prop
  | add {l x} : ok x → Step P ok l (.add x) .unit (l ++ [x])
  /-- An element of the wrong type: the vector has a new element nevertheless. -/
  | addFail {l x y} : ok x = false → P y → Step P ok l (.add x) (.fail .typeError) (l ++ [y])
  | setSize {l l'} {n : Nat} : Resized P l n l' → Step P ok l (.setSize n) .unit l'
  | setSizeFail {l n} : n < 0 → Step P ok l (.setSize n) (.fail .naturalNumber) l
  | set {l x} {i : Nat} : ok x → i < l.length → Step P ok l (.set i x) .unit (l.set i x)
  | setGrow {l l' x} {i : Nat} : ok x → l.length ≤ i → Resized P l i l' →
      Step P ok l (.set i x) .unit (l' ++ [x])
  | setType {l i x} : ok x = false → Step P ok l (.set i x) (.fail .typeError) l
  | setRange {l i x} : ok x → i < 0 → Step P ok l (.set i x) (.fail .invalidIndex) l
  | get {l x d} {i : Nat} : l[i]? = some x → Step P ok l (.get i d) (.val x) l
  | getDefault {l i d} : (i < 0 ∨ (l.length : Int) ≤ i) → ok d →
      Step P ok l (.get i (some d)) (.val d) l
  | getType {l i d} : (i < 0 ∨ (l.length : Int) ≤ i) → ok d = false →
      Step P ok l (.get i (some d)) (.fail .typeError) l
  | getRange {l i} : (i < 0 ∨ (l.length : Int) ≤ i) →
      Step P ok l (.get i none) (.fail .invalidIndex) l
  | remove {l t} : Step P ok l (.remove t none) .unit (l.filter fun x => ! t x)
  | removeCount {l t c} : Step P ok l (.remove t (some c)) .unit (removeFirst t c.toNat l)
  | size {l} : Step P ok l .size (.num l.length) l
  | all {l} : Step P ok l .all (.list l) l

/-- The effect of a history. -/
inductive Steps (P : α → Prop) (ok : α → Bool) :
    List α → List (Op α) → List (Out α) → List α → Prop
  | nil {l} : Steps P ok l [] [] l
  | cons {l op o l' ops os l''} : Step P ok l op o l' → Steps P ok l' ops os l'' →
      Steps P ok l (op :: ops) (o :: os) l''

end Verif.Stretchy.Spec
