import Verif.Plist.Model

/-!
# What property lists mean
-/

namespace Verif.Plist

variable {α : Type} [DecidableEq α]

/-- The properties in the order of the sequence: keys and values alternate. -/
def flat : List (α × α) → List α
  | [] => []
  | p :: ps => p.1 :: p.2 :: flat ps

/-- The value of a key: that of its first property. -/
def lookup (ps : List (α × α)) (k : α) : Option α :=
  match ps with
  | [] => none
  | p :: ps => if p.1 = k then some p.2 else lookup ps k

/-- The value of the last property with the key. -/
def lookupLast (ps : List (α × α)) (k : α) : Option α := lookup ps.reverse k

/-- The properties after the key was given a value: the first property with the key has it, or there is a new property at
the end. -/
def update (ps : List (α × α)) (k v : α) : List (α × α) :=
  match ps with
  | [] => [(k, v)]
  | p :: ps => if p.1 = k then (k, v) :: ps else p :: update ps k v

/-- The properties without the first one with the key. -/
def removeFirst (ps : List (α × α)) (k : α) : List (α × α) :=
  match ps with
  | [] => []
  | p :: ps => if p.1 = k then ps else p :: removeFirst ps k

/-- The pairs with the addresses `as` are the list with the elements `xs`. -/
def Chain (m : Mem α) : Option Nat → List Nat → List α → Prop
  | none, [], [] => True
  | some a, b :: as, x :: xs => a = b ∧ (m.cells a).head = x ∧ Chain m (m.cells a).tail as xs
  | _, _, _ => False

/-- A list in memory: its pairs are different ones and were made before. -/
def Stored (m : Mem α) (p : Option Nat) (as : List Nat) (xs : List α) : Prop :=
  Chain m p as xs ∧ as.Nodup ∧ ∀ a ∈ as, a < m.next

/-- The memory is the same but for the pairs `as` and new ones. -/
def Only (m m' : Mem α) (as : List Nat) : Prop := ∀ a, a < m.next → a ∉ as → m'.cells a = m.cells a

end Verif.Plist
