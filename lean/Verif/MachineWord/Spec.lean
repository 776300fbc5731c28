import Verif.MachineWord.Model
/-
What a pair of machine words denotes.
-/
namespace Verif.MachineWord
open Verif.Integer

/-- The number a pair of words denotes, read as signed. -/
def sval (low high : Word) : Int := low.toNat + 2 ^ 64 * high.toInt
/-- The number a pair of words denotes, read as unsigned. -/
def uval (low high : Word) : Nat := low.toNat + 2 ^ 64 * high.toNat

/-- The number an `<abstract-integer>` object denotes: a tagged word denotes the
word without its two tag bits, a `<double-integer>` its pair of words. -/
def aval : C.Abstract → Int
  | .fixed w => w.toInt / 4
  | .double l h => sval l h

end Verif.MachineWord
