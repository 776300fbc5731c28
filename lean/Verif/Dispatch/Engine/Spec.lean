/-
What dispatch should do, without any cache: find the applicable methods, sort them, invoke them.
And the generic functions for which the cache can be trusted to do the same.
-/
import Verif.Dispatch.Order.Spec

namespace Verif.Dispatch
open Verif.Types
variable {C : Type} [DecidableEq C]

/-- The methods that accept the arguments. -/
def applicable (K : DWorld C) (nreq : Nat) (ms : List (Meth C)) (args : Args C) : List (Meth C) :=
  ms.filter fun m => (List.range nreq).all fun a => isInst K.toWorld (args a) (spec K m a)

/-- Dispatch without a cache. -/
def direct (K : DWorld C) (nreq : Nat) (ms : List (Meth C)) (args : Args C) : Outcome :=
  if applicable K nreq ms args = [] then .inapplicable
  else
    let r := sortMethods (orderMethods K nreq args) (applicable K nreq ms args)
    .invoke (r.1.map (action K args)) (r.2.map Meth.id)

/-- A history of calls of one generic function, each with its arguments and with an order in which
    the arguments are examined: the outcomes.  The cache is carried from call to call, and each
    call is given one miss.  `none`: some call ends with an error inside the dispatcher, or misses
    again. -/
def history (K : DWorld C) (nreq : Nat) (ms : List (Meth C)) :
    List (List Nat × Args C) → Node C → Option (List Outcome)
  | [], _ => some []
  | (order, args) :: rest, root =>
    (call K nreq order ms args 1 root).bind fun r =>
      (history K nreq ms rest r.2).map (r.1 :: ·)

/-- Class objects, and nothing else, are direct instances of the subclasses of `<class>`. -/
def ProperArgs (K : DWorld C) (nreq : Nat) (args : Args C) : Prop :=
  ∀ a < nreq, K.sub (classOf K.toWorld (args a)) K.classC = true → ∃ d, args a = .cls d

/-- `t` is, or is a member of, the specializer of some method at position `a`. -/
def At (K : DWorld C) (ms : List (Meth C)) (a : Nat) (t : Ty C) : Prop :=
  ∃ m ∈ ms, t ∈ (spec K m a).members

/-- A limited integer or limited function type, with the class it is a part of. -/
inductive Limited (K : DWorld C) : Ty C → C → Prop where
  | int (b : Bounds) : Limited K (.limInt b) K.intC
  | fn (s : Nat) : Limited K (.limFun s) K.funC

/-- Generic functions for which the cache is right:
    * the types are built of classes, singletons, limited integers and functions, subclass types
      and unions, without `subclass(<class>)` and without inverted bounds (see C29);
    * `subtype?` has an answer for any two specializers at the same position (see C30; the model
      treats a missing answer as "no", the code signals an error);
    * no subclass type inside a union;
    * no limited type is a proper subtype of another one at the same position;
    * no singleton at the same position as a limited type of a related class;
    * slot accessors have an instance argument, and a slot whose place is taken to be the same in
      all instances of the specializer is at the same place in them (see C46). -/
structure Regular (K : DWorld C) (nreq : Nat) (ms : List (Meth C)) : Prop where
  noColl : ∀ a < nreq, ∀ t, At K ms a t → ∀ c e s d, t ≠ .limColl c e s d
  noSubclass : ∀ a < nreq, ∀ t, At K ms a t → t ≠ .subclass K.classC
  bounds : ∀ a < nreq, ∀ m M, At K ms a (.limInt (.both m M)) → m.toInt ≤ M.toInt
  defined : ∀ a < nreq, ∀ m ∈ ms, ∀ m' ∈ ms, sub K.toWorld (spec K m a) (spec K m' a) ≠ none
  flat : ∀ a < nreq, ∀ m ∈ ms, ∀ s t, spec K m a = .union s t →
    ∀ c, Ty.subclass c ∉ (spec K m a).members
  unrelated : ∀ a < nreq, ∀ s t c d, At K ms a s → At K ms a t → Limited K s c → Limited K t d →
    Sub K s t → Sub K t s
  noMix : ∀ a < nreq, ∀ o t c, At K ms a (.single o) → At K ms a t → Limited K t c →
    K.sub (classOf K.toWorld o) c = false ∧ K.sub c (classOf K.toWorld o) = false
  accArg : ∀ m ∈ ms, ∀ a, m.acc = some a → a < nreq
  accFixed : ∀ m ∈ ms, ∀ a, m.acc = some a → m.fixed = true → ∀ x y,
    Inst K x (spec K m a) → Inst K y (spec K m a) →
    K.offset m.id (classOf K.toWorld x) = K.offset m.id (classOf K.toWorld y)

/-- What a call with the given arguments should do, in terms of the specificity rules (C52):
    signal an error if no method is applicable; else invoke the applicable methods in order of
    specificity, slot accessors with the place of the slot in instances of the class of their
    argument. -/
def Right (K : DWorld C) (nreq : Nat) (ms : List (Meth C)) (args : Args C) : Outcome → Prop
  | .inapplicable => ∀ m ∈ ms, ¬ Applicable K nreq args m
  | .invoke o a => (∃ m ∈ ms, Applicable K nreq args m) ∧
    ∃ app om am : List (Meth C), app.Nodup ∧ (∀ m, m ∈ app ↔ m ∈ ms ∧ Applicable K nreq args m) ∧
      Sorted (fun m m' => m ≠ m' ∧ MethodBefore K nreq args m m') app om am ∧
      o = om.map (fun m =>
        (m.id, m.acc.map fun b => K.offset m.id (classOf K.toWorld (args b)))) ∧
      a = am.map fun m => m.id

end Verif.Dispatch
