/-
Vocabulary for the statements about slots.  Nothing here refers to how layouts are computed.
-/
import Verif.Slots.Model
import Verif.Class.Spec

namespace Verif.Slots

/-- The definition of `a`, a class in the precedence list of `c`, has the slot `d`. -/
def Declared (G : Graph) (c a : Nat) (d : SlotDef) : Prop := a ∈ G.cpl c ∧ d ∈ G.slots a

/-- The words an instance of `c` must have: one for each instance slot, and one for the size of each
    repeated slot, of `c` and its superclasses. -/
def Stored (G : Graph) (c : Nat) (s : Sd) : Prop :=
  ∃ a d, Declared G c a d ∧ ((d.alloc = .inst ∧ s = .slot a d) ∨ ∃ g, d.alloc = .repeated g ∧ s = .size a g)

/-- The class slots of `c`. -/
def ClassSlot (G : Graph) (c : Nat) (s : Sd) : Prop :=
  ∃ a d, Declared G c a d ∧ (d.alloc = .cls ∨ d.alloc = .eachSubclass) ∧ s = .slot a d

/-- No getter occurs twice among the slots of `c` and its superclasses. -/
def DistinctGetters (G : Graph) (c : Nat) : Prop :=
  ((G.cpl c).flatMap (fun a => (G.slots a).map SlotDef.getter)).Nodup

/-- `c` and its superclasses have no repeated slot. -/
def NoRepeated (G : Graph) (c : Nat) : Prop := ∀ a d g, Declared G c a d → d.alloc ≠ .repeated g

/-- Among `c` and its superclasses no getter occurs twice, or there are no repeated slots. -/
def Tame (G : Graph) (c : Nat) : Prop := DistinctGetters G c ∨ NoRepeated G c

/-- The size of a repeated slot is not read through the getter of another slot. -/
def SizeGettersFresh (G : Graph) (c : Nat) : Prop :=
  ∀ a d g a' d', Declared G c a d → d.alloc = .repeated g → Declared G c a' d' → d'.getter ≠ g

/-- `c` has at most one repeated slot. -/
def OneRepeated (G : Graph) (c : Nat) : Prop :=
  ∀ a d g a' d' g', Declared G c a d → d.alloc = .repeated g → Declared G c a' d' →
    d'.alloc = .repeated g' → a = a' ∧ d = d'

/-- The values of slots after some assignments. -/
def assigned : (Sd → Option Nat) → List (Sd × Nat) → Sd → Option Nat
  | t, [] => t
  | t, p :: ps => assigned (fun s => if s = p.1 then some p.2 else t s) ps

/-- What the compiler knows of subclasses is true of the world: the classes it knows as direct
    subclasses of a class are, and where it says that it knows all of them, it does. -/
structure SubsTrue (w : Class.World) (S : Subs) : Prop where
  sound : ∀ c k, k ∈ S.direct c → Class.Direct w k c
  complete : ∀ c k, S.known c = true → Class.Direct w k c → k ∈ S.direct c

/-- Where the value of a class slot is kept: with the owner for allocation `class`, with each class
    for allocation `each-subclass`. -/
def home (sd : Sd) (k : Nat) : Nat := if sd.alloc = .eachSubclass then k else sd.owner

/-- The values of the `get`s if class slots were kept in a table by slot and home. -/
def ideal : (Sd → Nat → Option Nat) → List COp → List (Option Nat)
  | _, [] => []
  | t, .get k sd :: ops => t sd (home sd k) :: ideal t ops
  | t, .set k sd v :: ops =>
    ideal (fun sd' h => if sd' = sd ∧ h = home sd k then some v else t sd' h) ops
  | t, .new _ :: ops => ideal t ops

end Verif.Slots
