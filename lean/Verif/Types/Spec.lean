/-
Vocabulary for the statements about types: what is assumed of the class heterarchy, and the
families of types for which the claims hold.  Nothing here refers to how the relations are
computed.
-/
import Verif.Types.Model

namespace Verif.Types
variable {C : Type} [DecidableEq C]

/-- `subclass?` is a partial order, class objects are instances of `<class>`, and one object has one
    structure. -/
structure Lawful (K : World C) : Prop where
  refl : ∀ c, K.sub c c = true
  trans : ∀ a b c, K.sub a b = true → K.sub b c = true → K.sub a c = true
  antisymm : ∀ a b, K.sub a b = true → K.sub b a = true → a = b
  metaC : ∀ c, K.sub (K.metaC c) K.classC = true
  same : ∀ a b, K.same a b = true → a = b

/-- The two facts kept by class creation on which disjointness of classes rests: two primary
    classes with a common subclass are related, and two unrelated classes with a common
    subclass know of each other (one of them lists the other as joint). -/
structure Joined (K : World C) : Prop where
  primary : ∀ k a b, K.sub k a = true → K.sub k b = true →
    K.primary a = true → K.primary b = true → K.sub a b = true ∨ K.sub b a = true
  joint : ∀ k a b, K.sub k a = true → K.sub k b = true →
    K.sub a b = true ∨ K.sub b a = true ∨ a ∈ K.joint b ∨ b ∈ K.joint a

mutual
/-- Types that avoid the corners in which `subtype?` disagrees with `instance?`: no
    `subclass(<class>)`, no limited integer with `min > max`, and every stated or actual list of
    dimensions has rank `r`. -/
def Ty.Tame (K : World C) (r : Nat) : Ty C → Prop
  | .cls _ => True
  | .single o => o.Tame K r
  | .union a b => a.Tame K r ∧ b.Tame K r
  | .limInt (.both m M) => m.toInt ≤ M.toInt
  | .limInt _ => True
  | .subclass c => c ≠ K.classC
  | .limColl _ e _ dims => e.Tame K r ∧ ∀ d, dims = some d → d.length = r
  | .limFun _ => True
/-- The same for the types inside objects. -/
def Obj.Tame (K : World C) (r : Nat) : Obj C → Prop
  | .coll _ e dims _ => e.Tame K r ∧ dims.length = r
  | _ => True
end

/-- The kinds of types between which no `subtype?` method exists. -/
inductive Kind where
  | limInt | subclass | limFun
  deriving DecidableEq

mutual
/-- Of the kinds limited integer, subclass and limited function, only `k` occurs in the type
    (nor inside the objects it mentions), and no empty list of dimensions. -/
def Ty.Only (k : Kind) : Ty C → Prop
  | .cls _ => True
  | .single o => o.Only k
  | .union a b => a.Only k ∧ b.Only k
  | .limInt _ => k = .limInt
  | .subclass _ => k = .subclass
  | .limColl _ e _ dims => e.Only k ∧ dims ≠ some []
  | .limFun _ => k = .limFun
/-- The same for the types inside objects. -/
def Obj.Only (k : Kind) : Obj C → Prop
  | .coll _ e _ _ => e.Only k
  | _ => True
end

/-- No limited function type occurs (outside objects), and a limited collection type with both
    a size and dimensions has them agree. -/
def Ty.Reflexive : Ty C → Prop
  | .union a b => a.Reflexive ∧ b.Reflexive
  | .limColl _ e (some s) (some (d :: ds)) => e.Reflexive ∧ (d :: ds).prod = s
  | .limColl _ e _ _ => e.Reflexive
  | .limFun _ => False
  | _ => True

/-- The members of a union, however nested. -/
def Ty.members : Ty C → List (Ty C)
  | .union a b => a.members ++ b.members
  | t => [t]

/-- Pairs of non-union types on which the disjointness test is not trustworthy: a limited
    collection type against a class; two limited collection types with unrelated classes or with
    a size or dimensions; a limited function type against a class or another one. -/
def Shaky (K : World C) : Ty C → Ty C → Prop
  | .limColl _ _ _ _, .cls _ => True
  | .cls _, .limColl _ _ _ _ => True
  | .limColl c _ s d, .limColl c' _ s' d' =>
    ¬ (s = none ∧ d = none ∧ s' = none ∧ d' = none ∧ (K.sub c c' = true ∨ K.sub c' c = true))
  | .limFun _, .limFun _ => True
  | .limFun _, .cls _ => True
  | .cls _, .limFun _ => True
  | _, _ => False

end Verif.Types
