/-
What a generic function is to its user: a set of methods, each added by some library, no two of
them with the same specializers.
-/
import Verif.Dispatch.Gf.Model
import Verif.Dispatch.Order.Props
import Verif.Dispatch.Engine.Spec

namespace Verif.Dispatch.Gf
open Verif.Types Verif.Dispatch
variable {C : Type} [DecidableEq C]

/-- The same specializer at every position. -/
def SameTypes (K : DWorld C) (nreq : Nat) (m m' : Meth C) : Prop :=
  ∀ a < nreq, spec K m a = spec K m' a

/-- The methods of a generic function with the libraries they belong to. -/
def entries (glib : Nat) (g : Gf C) : List (Meth C × Nat) :=
  g.meths.zip (g.libs ++ List.replicate (g.meths.length - g.libs.length) glib)

/-- The methods, with their libraries, that there are after an operation, given those there were
    before. -/
def After (K : DWorld C) (nreq : Nat) (S : Meth C × Nat → Prop) : Op C → Meth C × Nat → Prop
  | .add m lib => fun e => e = (m, lib) ∨ (S e ∧ ¬ SameTypes K nreq e.1 m)
  | .remove m => fun e => S e ∧ e.1 ≠ m
  | .call _ _ => S

/-- What a call should do when the methods are the ones in `S` (as `Verif.Dispatch.Right`). -/
def RightFor (K : DWorld C) (nreq : Nat) (S : Meth C × Nat → Prop) (args : Args C) (o : Outcome) :
    Prop :=
  ∃ ms : List (Meth C), (∀ m, m ∈ ms ↔ ∃ lib, S (m, lib)) ∧ Right K nreq ms args o

/-- The outcomes of the calls in a history of operations are right, for the methods there are at
    the time. -/
def RightRun (K : DWorld C) (nreq : Nat) :
    List (Op C) → (Meth C × Nat → Prop) → List Outcome → Prop
  | [], _, os => os = []
  | .call order args :: ops, S, os =>
    ∃ o os', os = o :: os' ∧ RightFor K nreq S args o ∧
      RightRun K nreq ops (After K nreq S (.call order args)) os'
  | op :: ops, S, os => RightRun K nreq ops (After K nreq S op) os

/-- No method is removed after a call, unless one is added in between. `called` says whether there
    was a call since the last addition. -/
def RemovesFirst : Bool → List (Op C) → Prop
  | _, [] => True
  | _, .add _ _ :: ops => RemovesFirst false ops
  | called, .remove _ :: ops => called = false ∧ RemovesFirst called ops
  | _, .call _ _ :: ops => RemovesFirst true ops

/-- No method of the library of the generic function is replaced by one of another library. -/
def NoTakeover (K : DWorld C) (nreq glib : Nat) : List (Op C) → (Meth C × Nat → Prop) → Prop
  | [], _ => True
  | .add m lib :: ops, S =>
    (lib ≠ glib → ∀ x, S (x, glib) → ¬ SameTypes K nreq x m) ∧
      NoTakeover K nreq glib ops (After K nreq S (.add m lib))
  | op :: ops, S => NoTakeover K nreq glib ops (After K nreq S op)

/-- The arguments of the calls are as in `Verif.Dispatch.ProperArgs`, and all argument positions
    are examined. -/
def ProperCalls (K : DWorld C) (nreq : Nat) (ops : List (Op C)) : Prop :=
  ∀ order args, Op.call order args ∈ ops →
    (∀ a, a ∈ order ↔ a < nreq) ∧ ProperArgs K nreq args

/-- Methods for which dispatch is right (C52, C53) and whose specializers are the same if they are
    equivalent. -/
structure Plain (K : DWorld C) (nreq : Nat) (U : List (Meth C)) : Prop where
  regular : Regular K nreq U
  comparable : ∀ m ∈ U, ∀ m' ∈ U, m ≠ m' → ComparableMethods K nreq m m'
  same : ∀ m ∈ U, ∀ m' ∈ U, ∀ a < nreq,
    Equivalent K (spec K m a) (spec K m' a) → spec K m a = spec K m' a

end Verif.Dispatch.Gf
