/-
Numbers as they are written, and the members a selection is meant to give.
-/
namespace Verif.JamSelect

/-- The number that a text of decimal digits stands for. -/
def num (ds : List Char) : Nat := ds.foldl (fun v c => v * 10 + (c.toNat - '0'.toNat)) 0

/-- The text is a number that an `<integer>` can hold. -/
def Writes (ds : List Char) (n : Nat) : Prop :=
  ds ≠ [] ∧ (∀ c ∈ ds, '0'.toNat ≤ c.toNat ∧ c.toNat ≤ '9'.toNat) ∧ num ds = n ∧ n < 2 ^ 61

/-- The members with numbers from `n` to `m`, counted from one. -/
def members {α : Type} (contents : List α) (n m : Nat) : List α :=
  (contents.zipIdx 1).filterMap fun p => if n ≤ p.2 ∧ p.2 ≤ m then some p.1 else none

end Verif.JamSelect
