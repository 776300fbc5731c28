/-
Vocabulary for the statements about classes.  Nothing here refers to how precedence lists or
position data are computed.
-/
import Verif.Class.Model
import Mathlib.Logic.Relation

namespace Verif.Class

/-- `b` is named as a direct superclass in the definition of `a`. -/
def Direct (w : World) (a b : Nat) : Prop := ∃ r, w[a]? = some r ∧ b ∈ r.fx.supers

/-- `b` is `a` or is reached from `a` through direct superclasses. -/
def Superclass (w : World) : Nat → Nat → Prop := Relation.ReflTransGen (Direct w)

/-- An acceptable precedence list for a class `c` with direct superclasses `sups` whose precedence
    lists are `cpls`: `c` comes first, no class occurs twice, the order of the direct superclasses
    and the order of each of their precedence lists is kept, and there is nothing else in it. -/
structure Acceptable (c : Nat) (sups : List Nat) (cpls : List (List Nat)) (L : List Nat) : Prop where
  first : L.head? = some c
  once : L.Nodup
  ordered : sups.Sublist L
  inherited : ∀ l ∈ cpls, l.Sublist L
  nothingElse : ∀ x ∈ L, x = c ∨ x ∈ sups ∨ ∃ l ∈ cpls, x ∈ l

/-- A world that some history of class definitions leads to. -/
def Reachable (w : World) : Prop := ∃ ops, w = run objectWorld ops

/-- The definitions in an operation. -/
def Op.defs : Op → List Def
  | .make d => [d]
  | .load ds => ds

/-- Every class definition names at least one superclass. -/
def Rooted (ops : List Op) : Prop := ∀ op ∈ ops, ∀ d ∈ op.defs, d.supers ≠ []

/-- Only libraries are loaded: no class is made at run time. -/
def LoadsOnly (ops : List Op) : Prop := ∀ op ∈ ops, ∃ ds, op = .load ds

/-- The subtype bits in use are different powers of two. -/
def DistinctBits (w : World) : Prop :=
  (∀ (c : Nat) (r : Cls), w[c]? = some r → r.fx.bit ≠ 0 → ∃ i, r.fx.bit = 2 ^ i) ∧
  ∀ (c d : Nat) (r s : Cls), w[c]? = some r → w[d]? = some s → r.fx.bit = s.fx.bit → r.fx.bit ≠ 0 → c = d

/-- The precedence lists of the given classes. -/
def ListsOf (w : World) (sups : List Nat) (cpls : List (List Nat)) : Prop :=
  sups.map (allSuperclasses w) = cpls.map Except.ok

/-- A class that was declared primary. -/
def IsPrimary (w : World) (c : Nat) : Prop := ∃ r, w[c]? = some r ∧ r.fx.primary = true

/-- Any two primary classes among the superclasses of the given classes are in the subclass
    relation. -/
def PrimariesRelated (w : World) (sups : List Nat) : Prop :=
  ∀ s ∈ sups, ∀ t ∈ sups, ∀ a b, Superclass w s a → Superclass w t b → IsPrimary w a →
    IsPrimary w b → Superclass w a b ∨ Superclass w b a

end Verif.Class
