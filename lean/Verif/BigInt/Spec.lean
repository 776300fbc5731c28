/-
The numbers the integers of the `big-integers` library stand for.
-/
import Verif.BigInt.Model
import Verif.Integer.Spec

namespace Verif.BigInt
open Verif.Integer

/-- The numbers from `$minimum-integer` to `$maximum-integer` of the library: 128 bits. -/
def In128 (n : Int) : Prop := -2 ^ 127 ≤ n ∧ n < 2 ^ 127

instance (n : Int) : Decidable (In128 n) := by unfold In128; infer_instance

/-- The integer that stands for a number: a tagged word if it is a `dylan/<integer>`, otherwise the words of its
    representation with 128 bits. -/
def big (n : Int) : Big := if InRange n then .small (tag n) else .double (BitVec.ofInt 64 n) (BitVec.ofInt 64 (n / 2 ^ 64))

/-- The words of the representation with 128 bits. -/
def lowOf (n : Int) : Word := BitVec.ofInt 64 n
def highOf (n : Int) : Word := BitVec.ofInt 64 (n / 2 ^ 64)

/-- The number with 128 bits that differs from `n` by a multiple of `2^128`. -/
def wrap (n : Int) : Int := (n + 2 ^ 127) % 2 ^ 128 - 2 ^ 127

end Verif.BigInt
