/-
Vocabulary for the statements about initialisation.
-/
import Verif.Init.Model

namespace Verif.Init

/-- A `keyword` clause that says what happens if the keyword is not supplied. -/
def ArgSpec.Decides (d : ArgSpec) (k : Nat) : Prop := d.keyword = k ∧ (d.required = true ∨ d.init.isSome = true)

instance (d : ArgSpec) (k : Nat) : Decidable (d.Decides k) := inferInstanceAs (Decidable (_ ∧ _))

/-- The first `keyword` clause, in the order of the given classes, that decides about `k`. -/
def decider (H : Sys) (k : Nat) (cs : List Nat) : Option ArgSpec :=
  (cs.flatMap H.args).find? (fun d => decide (d.Decides k))

/-- The default for keyword `k` in class `c`: that of the deciding clause, unless it is `required`. -/
def defaultFor (H : Sys) (c k : Nat) : Option Nat :=
  (decider H k (H.cpl c)).bind (fun d => if d.required then none else d.init.map H.eval)

/-- The classes that come before the owner of the slot in the precedence list. -/
def above (H : Sys) (s : SlotD) (c : Nat) : List Nat := (H.cpl c).takeWhile (fun a => decide (a ≠ s.owner))

/-- Whether the keyword of the slot must be supplied for `c`: the first class before the owner that
    decides says so, or no class decides and the slot definition says so. -/
def Needed (H : Sys) (s : SlotD) (c k : Nat) : Prop :=
  match decider H k (above H s c) with
  | some d => d.required = true
  | none => s.required = true

/-- The initial value of the slot in `c`: the first `inherited slot` clause with one among the
    classes before the owner, or that of the slot definition. -/
def initial (H : Sys) (s : SlotD) (c : Nat) : Option Nat :=
  match ((above H s c).flatMap H.inh).find? (fun d => decide (d.getter = s.getter ∧ d.init.isSome = true)) with
  | some d => d.init.map H.eval
  | none => s.init.map H.eval

/-- The value for the keyword: the first in the arguments of `make`, or the default. -/
def supplied (H : Sys) (c : Nat) (user : List (Nat × Nat)) (k : Nat) : Option Nat :=
  (user.lookup k).or (defaultFor H c k)

/-- The outcome for one slot of a new instance. -/
inductive Outcome (H : Sys) (c : Nat) (user : List (Nat × Nat)) (s : SlotD) : Except Err (Option Nat) → Prop
  | keyword (k v : Nat) : s.keyword = some k → supplied H c user k = some v → H.inst s.type v = true →
      Outcome H c user s (.ok (some v))
  | wrong (k v : Nat) : s.keyword = some k → supplied H c user k = some v → H.inst s.type v = false →
      Outcome H c user s (.error .type)
  | missing (k : Nat) : s.keyword = some k → supplied H c user k = none → Needed H s c k →
      Outcome H c user s (.error .missing)
  | initial (k : Nat) : s.keyword = some k → supplied H c user k = none → ¬ Needed H s c k →
      Outcome H c user s (.ok (initial H s c))
  | unkeyed : s.keyword = none → Outcome H c user s (.ok (initial H s c))

/-- A precedence list begins with its class. -/
def Sys.Sane (H : Sys) (c : Nat) : Prop := ∃ t, H.cpl c = c :: t

end Verif.Init
