import Mathlib.Data.Rat.Floor
/-
Mathematical vocabulary for the integer properties.  Nothing here mentions the
model.
-/
namespace Verif.Integer

/-- The representable integers: `$minimum-integer` … `$maximum-integer` on a
64-bit target, 62 bits of two's complement. -/
def InRange (n : Int) : Prop := -2 ^ 61 ≤ n ∧ n < 2 ^ 61

instance (n : Int) : Decidable (InRange n) := by unfold InRange; infer_instance

/-- Bit `i` of the infinite two's complement representation of `n`. -/
def bit (n : Int) (i : Nat) : Bool := decide (n / 2 ^ i % 2 = 1)

/-- `q` is the integer nearest to `x / y`, ties going to the even one. -/
def IsRound (x y q : Int) : Prop :=
  2 * |x - q * y| ≤ |y| ∧ (2 * |x - q * y| = |y| → q % 2 = 0)

/-- `q` is `x / y` rounded toward zero. -/
def IsTruncate (x y q : Int) : Prop :=
  q = if 0 ≤ (x : ℚ) / y then ⌊(x : ℚ) / y⌋ else ⌈(x : ℚ) / y⌉

end Verif.Integer
