/-
What a dispatch table is supposed to be: a finite map from classes to engine nodes.
-/
import Mathlib.Data.List.Basic

namespace Verif.Dispatch.Table

/-- The value last associated with `key` in a sequence of associations, oldest first. -/
def lastValue {V : Type} (key : Nat) : List (Nat × V) → Option V
  | [] => none
  | (k, v) :: rest =>
    match lastValue key rest with
    | some w => some w
    | none => if k = key then some v else none

end Verif.Dispatch.Table
