import Verif.Names.Modules

/-
Model of the walk over the namespaces a namespace uses, directly or not:
sources/dfmc/namespace/namespaces.dylan:563-594.
-/

namespace Verif.Names

/-- The loop over the `use` clauses in `walk`,
dfmc/namespace/namespaces.dylan:582-587. -/
def walkList (w : List Nat → Nat → Option (List Nat)) :
    List Nat → List Nat → Option (List Nat)
  | used, [] => some used
  | used, y :: ys =>
    match w used y with
    | some used => walkList w used ys
    | none => none

/-- `walk`, dfmc/namespace/namespaces.dylan:580-590: `g` gives the namespaces
that the clauses of a namespace resolve to.  A namespace is marked visited,
and put in front of those collected, after the ones it uses.  `none` means the
given depth was not enough. -/
def walk (g : Nat → List Nat) : Nat → List Nat → Nat → Option (List Nat)
  | 0, _, _ => none
  | depth + 1, used, x =>
    if x ∈ used then some used
    else
      match walkList (walk g depth) used (g x) with
      | some used => some (x :: used)
      | none => none

/-- What the clauses of module `i` resolve to once `count` modules are
defined, dfmc/namespace/modules.dylan:110-116. -/
def usedBy (D : Nat → Decl) (count i : Nat) : List Nat :=
  ((D i).uses.map Use.used).filter (fun j => decide (j < count))

/-- `all-used-namespaces`, dfmc/namespace/namespaces.dylan:563-594. -/
def allUsed (D : Nat → Decl) (count depth i : Nat) : Option (List Nat) :=
  walk (usedBy D count) depth [] i

end Verif.Names
