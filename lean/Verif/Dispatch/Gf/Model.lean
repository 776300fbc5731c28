/-
Adding methods to and removing methods from a generic function
(`sources/dylan/generic-function.dylan`).

Modelled: an `<incremental-generic-function>` (that is, one that is not sealed) with its list of
methods, the libraries of the first of them, and its dispatch cache.
Not modelled: the checks that a method is congruent and may be added at all (sealing,
`method-not-frobbable?`), incomplete types, call-site caches, and the lock.
-/
import Verif.Dispatch.Model

namespace Verif.Dispatch.Gf
open Verif.Types Verif.Dispatch
variable {C : Type} [DecidableEq C]

/-- A generic function: `generic-function-methods`, `incremental-gf-method-libraries` (the
    libraries of the first methods; the others belong to the library of the generic function) and
    `discriminator`. -/
structure Gf (C : Type) where
  meths : List (Meth C)
  libs : List Nat
  root : Node C

/-- The local `loop` of `locate-method` (`generic-function.dylan:231-237`): do all specializers
    match? -/
def sameSpecs (K : DWorld C) (nreq : Nat) (m m' : Meth C) : Bool :=
  (List.range nreq).all fun a => sameSpec K (spec K m a) (spec K m' a)

/-- `locate-method` (`generic-function.dylan:225-242`): the first method with the specializers of
    `m`, and its index. -/
def locate (K : DWorld C) (nreq : Nat) (m : Meth C) : List (Meth C) → Nat → Option (Meth C × Nat)
  | [], _ => none
  | x :: rest, i => if sameSpecs K nreq x m then some (x, i) else locate K nreq m rest (i + 1)

/-- `copy-over-without` (`generic-function.dylan:279-305`). -/
def copyOverWithout {α : Type} : List α → Nat → List α
  | [], _ => []
  | _ :: rest, 0 => rest
  | x :: rest, i + 1 => x :: copyOverWithout rest i

/-- The loop `for (i from idx below nlibs - 1) meths[i] := meths[i + 1] end`
    (`generic-function.dylan:391`), with the number of rounds that are left. -/
def shiftDown {α : Type} (l : List α) (i : Nat) : Nat → List α
  | 0 => l
  | n + 1 => shiftDown (match l[i + 1]? with | some x => l.set i x | none => l) (i + 1) n

/-- `add-method-internal-internal` (`generic-function.dylan:364-421`) with
    `%add-method-and-library` (439-452) and `finalize-generic-function` (156-176): the method that
    is replaced, and the new generic function, whose cache is empty. -/
def addMethod (K : DWorld C) (nreq : Nat) (glib : Nat) (g : Gf C) (m : Meth C) (lib : Nat) :
    Option (Meth C) × Gf C :=
  match locate K nreq m g.meths 0 with
  | some (old, idx) =>
    let nlibs := g.libs.length
    if idx < nlibs then
      if lib ≠ glib then
        (some old, { meths := g.meths.set idx m, libs := g.libs.set idx lib, root := .absent })
      else
        (some old, { meths := (shiftDown g.meths idx (nlibs - 1 - idx)).set (nlibs - 1) m, libs := copyOverWithout g.libs idx, root := .absent })
    else if lib ≠ glib then
      (some old, { meths := if idx ≠ nlibs then
          (match g.meths[nlibs]? with | some x => g.meths.set idx x | none => g.meths).set nlibs m
        else g.meths, libs := g.libs ++ [lib], root := .absent })
    else (some old, { meths := g.meths.set idx m, libs := g.libs, root := .absent })
  | none => (none, { meths := m :: g.meths, libs := lib :: g.libs, root := .absent })

/-- The loop of `remove-method-internal` (`generic-function.dylan:625-640`) for `remove-method`
    (571-575): the method that is removed, and the new generic function.  The cache is left as it
    is. -/
def removeFrom (g : Gf C) (m : Meth C) : List (Meth C) → Nat → Option (Meth C) × Gf C
  | [], _ => (none, g)
  | x :: rest, i =>
    if x = m then
      (some x, { meths := copyOverWithout g.meths i, libs := if i < g.libs.length then copyOverWithout g.libs i else g.libs, root := g.root })
    else removeFrom g m rest (i + 1)

/-- `remove-method`. -/
def removeMethod (g : Gf C) (m : Meth C) : Option (Meth C) × Gf C := removeFrom g m g.meths 0

/-- `find-method` (`generic-function.dylan:245-254`). -/
def findMethod (K : DWorld C) (nreq : Nat) (g : Gf C) (m : Meth C) : Option (Meth C) :=
  (locate K nreq m g.meths 0).map Prod.fst

/-- What may be done to a generic function. -/
inductive Op (C : Type) where
  | add (m : Meth C) (lib : Nat)
  | remove (m : Meth C)
  | call (order : List Nat) (args : Args C)

/-- A history of operations: the outcomes of the calls.  Each call is given one miss. -/
def run (K : DWorld C) (nreq glib : Nat) : List (Op C) → Gf C → Option (List Outcome)
  | [], _ => some []
  | .add m lib :: ops, g => run K nreq glib ops (addMethod K nreq glib g m lib).2
  | .remove m :: ops, g => run K nreq glib ops (removeMethod g m).2
  | .call order args :: ops, g =>
    (Dispatch.call K nreq order g.meths args 1 g.root).bind fun r =>
      (run K nreq glib ops { meths := g.meths, libs := g.libs, root := r.2 }).map (r.1 :: ·)

end Verif.Dispatch.Gf
