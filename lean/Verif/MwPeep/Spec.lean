import Verif.MwPeep.Model
import Verif.MwFold.Spec

/-!
# What terms of machine words mean

The meaning of the operations is that of `MwFold/Spec`.
-/

namespace Verif.MwPeep

open Verif.MwFold (run wordOf Out Prim)

/-- The primitive of `MwFold/Spec`. -/
def Op.prim : Op → Prim
  | .logand => .logand
  | .logior => .logior
  | .logxor => .logxor
  | .add => .addSignal
  | .subtract => .subtractSignal
  | .multiply => .multiplySignal
  | .shiftLeft => .shiftLeftSignal
  | .shiftRight => .shiftRight

/-- The word that an operation returns; `none` if it signals an error. -/
def returned (p : Prim) (args : List (BitVec 64)) : Option (BitVec 64) :=
  match run p args with
  | some (.word w) => some w
  | _ => none

/-- The word that a term evaluates to, given those of the values that are not calls; `none` if one of the operations
signals an error. -/
def eval (env : Nat → BitVec 64) : Term → Option (BitVec 64)
  | .other n _ => some (env n)
  | .const x => some (wordOf x)
  | .call op a b => (eval env a).bind fun x => (eval env b).bind fun y => returned op.prim [x, y]
  | .extract o s x =>
    (eval env o).bind fun o => (eval env s).bind fun s => (eval env x).bind fun x => returned .fieldExtract [o, s, x]

/-- A replacement that changes nothing: where the term returns a word, so does what it is replaced by. -/
def Right (t t' : Term) : Prop := ∀ env w, eval env t = some w → eval env t' = some w

end Verif.MwPeep
