import Verif.Threads.Tlv.Model
/-
What a thread variable is for the program: every thread has its own value, which is the last value the
thread wrote, or the default value with which the variable was allocated.
-/
namespace Verif.Threads.Tlv.Spec
variable {T V : Type} [DecidableEq T]

/-- The value of the variable `off` in thread `t` after a history (most recent event first). -/
def value (t : T) (off : Nat) : List (Event T V) → Option V
  | [] => none
  | .allocated _ o v :: h => if o = off then some v else value t off h
  | .wrote u o v :: h => if u = t ∧ o = off then some v else value t off h
  | .read _ _ _ :: h => value t off h

/-- The default value of the variable `off`. -/
def defaultValue (off : Nat) : List (Event T V) → Option V
  | [] => none
  | .allocated _ o v :: h => if o = off then some v else defaultValue off h
  | _ :: h => defaultValue off h

/-- Every read in the history returned the value of the variable at that moment. -/
def ReadsExact : List (Event T V) → Prop
  | [] => True
  | .read t off v :: h => value t off h = some v ∧ ReadsExact h
  | _ :: h => ReadsExact h

/-- The offset `off` lies in the vector. -/
def Within (off : Nat) (v : Vec V) : Prop := off < v.size + 2

/-- Every access to a vector that a thread is about to make is within the bounds of the vector, and the
vector of a thread that is about to be copied or updated exists. -/
def AccessesInBounds (s : State T V) : Prop :=
  (∀ t off v a, s.pc t = .wStore off v a → Within off (s.heap a)) ∧
  (∀ t off a, s.pc t = .rRead off a → Within off (s.heap a)) ∧
  (∀ t off v, s.pc t = .aDefault off v → Within off (s.heap s.default)) ∧
  (∀ t off v u rest, s.pc t = .aUpdate off v (u :: rest) →
    ∃ a, s.teb u = some a ∧ Within off (s.heap a)) ∧
  (∀ t off v u rest, s.pc t = .gNext off v (u :: rest) →
    ∃ a, s.teb u = some a ∧ (s.heap a).size ≤ (s.heap s.default).size)

end Verif.Threads.Tlv.Spec
