/-
Method specificity, as the language defines it (Dylan Reference Manual, chapter 6, "Method
Specificity"), with the rule of this implementation for two subclass types.  Only the type
relations and the class precedence lists are referred to.
-/
import Verif.Dispatch.Model
import Verif.Types.Spec

namespace Verif.Dispatch
open Verif.Types
variable {C : Type} [DecidableEq C]

/-- What is assumed of the class heterarchy: the assumptions of `Verif.Types`, every class is
    below `<object>`, and the class precedence list of a class has its superclasses, each once,
    and each before its own superclasses (C13, C14). -/
structure DLawful (K : DWorld C) : Prop extends Lawful K.toWorld where
  top : ∀ c, K.sub c K.objC = true
  mem : ∀ c d, d ∈ K.cpl c ↔ K.sub c d = true
  nodup : ∀ c, (K.cpl c).Nodup
  order : ∀ c d e, d ∈ K.cpl c → K.sub d e = true → d ≠ e → [d, e].Sublist (K.cpl c)

/-- `x` is an instance of `t`. -/
def Inst (K : DWorld C) (x : Obj C) (t : Ty C) : Prop := inst K.toWorld x t = some true

/-- `s` is a subtype of `t`. -/
def Sub (K : DWorld C) (s t : Ty C) : Prop := sub K.toWorld s t = some true

/-- For the argument `x`, specializer `s` is more specific than `t`: a proper subtype; or both
    are classes and `s` is first in the class precedence list of the class of `x`; or both are
    subclass types, `x` is a class, and the class of `s` is first in its precedence list. -/
def MoreSpecific (K : DWorld C) (x : Obj C) (s t : Ty C) : Prop :=
  (Sub K s t ∧ ¬ Sub K t s) ∨
  (∃ c d, s = .cls c ∧ t = .cls d ∧ [c, d].Sublist (K.cpl (classOf K.toWorld x))) ∨
  (∃ c d e, s = .subclass c ∧ t = .subclass d ∧ x = .cls e ∧ [c, d].Sublist (K.cpl e))

/-- The same type, or types that are subtypes of each other. -/
def Equivalent (K : DWorld C) (s t : Ty C) : Prop := s = t ∨ (Sub K s t ∧ Sub K t s)

/-- Types that can be compared: `subtype?` has an answer both ways (see C30), and neither is a
    union that consists of nothing but one singleton, nor `subclass(<object>)`, which is another
    name of `<class>` that `subtype?` does not recognise, nor `subclass(<class>)`, which `subtype?`
    takes for one (see C29). -/
structure Comparable (K : DWorld C) (s t : Ty C) : Prop where
  st : sub K.toWorld s t ≠ none
  ts : sub K.toWorld t s ≠ none
  s1 : ∀ o a b, s = .union a b → ¬ Sub K s (.single o)
  t1 : ∀ o a b, t = .union a b → ¬ Sub K t (.single o)
  s2 : s ≠ .subclass K.objC
  t2 : t ≠ .subclass K.objC
  s3 : s ≠ .subclass K.classC
  t3 : t ≠ .subclass K.classC

/-- For the arguments `args`, method `m1` is more specific than `m2`: at some position it has the
    more specific specializer, and at all others an equivalent or more specific one. -/
def MethodBefore (K : DWorld C) (nreq : Nat) (args : Args C) (m1 m2 : Meth C) : Prop :=
  (∃ a < nreq, MoreSpecific K (args a) (spec K m1 a) (spec K m2 a)) ∧
  ∀ a < nreq, MoreSpecific K (args a) (spec K m1 a) (spec K m2 a) ∨
    Equivalent K (spec K m1 a) (spec K m2 a)

/-- The method accepts the arguments. -/
def Applicable (K : DWorld C) (nreq : Nat) (args : Args C) (m : Meth C) : Prop :=
  ∀ a < nreq, Inst K (args a) (spec K m a)

/-- What sorting `ms` by the relation `before` should give: `ordered` and `ambiguous` are together
    `ms`; every method in `ordered` is before all that come after it and all the ambiguous ones;
    and the ordered part cannot be continued, because no ambiguous method is before all the other
    ambiguous ones. -/
structure Sorted {M : Type} (before : M → M → Prop) (ms ordered ambiguous : List M) : Prop where
  perm : (ordered ++ ambiguous).Perm ms
  chain : ordered.Pairwise before
  first : ∀ m ∈ ordered, ∀ m' ∈ ambiguous, before m m'
  stuck : ∀ m ∈ ambiguous, ∃ m' ∈ ambiguous, m' ≠ m ∧ ¬ before m m'

end Verif.Dispatch
