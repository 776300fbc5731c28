import Verif.Glob.Model

/-!
# Patterns of file names

What the comments of jam-glob.dylan say: a pattern is a sequence of parts, each of which stands for a set of strings.
-/

namespace Verif.Glob

/-- A part of what is between brackets. -/
inductive Item where
  | single (c : Nat)
  | range (a b : Nat)

/-- How it is written. -/
def Item.text : Item → List Nat
  | .single c => [c]
  | .range a b => [a, code '-', b]

/-- The characters it stands for. -/
def Item.has : Item → Nat → Prop
  | .single c, x => x = c
  | .range a b, x => a ≤ x ∧ x ≤ b

/-- The character it begins with. -/
def Item.head : Item → Nat
  | .single c => c
  | .range a _ => a

/-- A part of a pattern. -/
inductive Tok where
  | any
  | many
  | lit (c : Nat)
  | quoted (c : Nat)
  | cls (complement : Bool) (items : List Item)

/-- How it is written. -/
def Tok.text : Tok → List Nat
  | .any => [code '?']
  | .many => [code '*']
  | .lit c => [c]
  | .quoted c => [code '\\', c]
  | .cls complement items =>
    code '[' :: ((if complement then [code '^'] else []) ++ (items.flatMap Item.text ++ [code ']']))

/-- The strings it stands for. -/
def Tok.is : Tok → List Nat → Prop
  | .any, w => ∃ x, w = [x]
  | .many, _ => True
  | .lit c, w => w = [c]
  | .quoted c, w => w = [c]
  | .cls false items, w => ∃ x, w = [x] ∧ ∃ i ∈ items, i.has x
  | .cls true items, w => ∃ x, w = [x] ∧ ∀ i ∈ items, ¬ i.has x

/-- The strings that a pattern stands for. -/
def matchesAll : List Tok → List Nat → Prop
  | [], w => w = []
  | t :: ts, w => ∃ u v, w = u ++ v ∧ t.is u ∧ matchesAll ts v

/-- Between brackets: a bracket that closes is only possible at first, and a single character is not followed by a hyphen. -/
def itemsOk : Bool → List Item → Prop
  | _, [] => True
  | first, i :: l => (first = true ∨ i.head ≠ code ']') ∧
    ((∃ c, i = .single c) → ∀ j, l.head? = some j → j.head ≠ code '-') ∧ itemsOk false l

/-- A part that can be written so. -/
def Tok.ok : Tok → Prop
  | .any | .many | .quoted _ => True
  | .lit c => c ≠ code '?' ∧ c ≠ code '*' ∧ c ≠ code '[' ∧ c ≠ code '\\'
  | .cls complement items => items ≠ [] ∧ itemsOk true items ∧
    (complement = false → ∀ i, items.head? = some i → i.head ≠ code '^')

/-- How a pattern is written. -/
def textOf (ts : List Tok) : List Nat := ts.flatMap Tok.text

end Verif.Glob
