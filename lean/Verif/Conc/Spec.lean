/-
What a table used by several threads at once is supposed to do: its calls look as if each took place
at one moment between its start and its end (linearizability), on a map from keys to values.
-/
import Verif.Conc.Model
import Verif.Table.Spec

namespace Verif.Conc

open Verif.Table (World mapPut mapRemove)

variable {K V : Type}

/-- A call on a map: the map afterwards and the result. -/
def perform (eq : K → K → Bool) (m : K → Option V) : Op K V → (K → Option V) × Out V
  | .on .get k =>
    (m, match m k with
      | some v => .value v
      | none => .missing)
  | .on (.put v) k => (mapPut eq m k v, .stored)
  | .on .remove k => (mapRemove eq m k, .removed (m k).isSome)
  | .on (.intern v) k =>
    match m k with
    | some v' => (m, .value v')
    | none => (mapPut eq m k v, .value v)
  | .on (.symbol v) k =>
    match m k with
    | some v' => (m, .value v')
    | none => (mapPut eq m k v, .value v)
  | .removeAll => (fun _ => none, .cleared)

/-- A call and its result. -/
structure Entry (K V : Type) where
  id : Nat
  op : Op K V
  out : Out V

/-- The results are those of the calls made one after the other, starting with the map. -/
def Legal (eq : K → K → Bool) : (K → Option V) → List (Entry K V) → Prop
  | _, [] => True
  | m, e :: r => (perform eq m e.op).2 = e.out ∧ Legal eq (perform eq m e.op).1 r

/-- In a history, most recent event first, call `a` returned before call `b` started. -/
def Precedes (H : List (Event K V)) (a b : Nat) : Prop :=
  ∃ later earlier op out, H = later ++ .call b op :: earlier ∧ .ret a out ∈ earlier

/-- The history, most recent event first, is that of an atomic map: there is an order of the calls,
    comprising all that have returned without the error for tables that are too large and perhaps
    some still in progress, in which a call comes before those that started after its return, and
    which explains all results. -/
def Linearizable (eq : K → K → Bool) (H : List (Event K V)) : Prop :=
  ∃ S : List (Entry K V),
    (S.map Entry.id).Nodup ∧
    (∀ e ∈ S, .call e.id e.op ∈ H) ∧
    (∀ e ∈ S, ∀ out, .ret e.id out ∈ H → out = e.out) ∧
    (∀ id out, .ret id out ∈ H → out ≠ .tooLarge → ∃ e ∈ S, e.id = id) ∧
    S.Pairwise (fun a b => ¬ Precedes H b.id a.id) ∧
    Legal eq (fun _ => none) S

/-- Hash codes never change. -/
def Static (W : World K) : Prop := ∀ t u k, W.hash t k = W.hash u k

/-- `gethash-or-set` and `make-symbol`. -/
def Op.interns : Op K V → Prop
  | .on (.intern _) _ => True
  | .on (.symbol _) _ => True
  | _ => False

end Verif.Conc
