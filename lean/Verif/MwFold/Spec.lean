import Verif.MwFold.Model

/-!
# What the operations on machine words mean when they are run

From `documentation/source/library-reference/common-dylan/machine-words.rst` (282-620) and the instructions emitted in
`sources/dfmc/llvm-back-end/llvm-primitives-machine-word.dylan` (294-313 for bit fields).
-/

namespace Verif.MwFold

/-- What a call does at run time: it returns a word, returns a boolean, or signals overflow. -/
inductive Out
  | word (w : BitVec 64)
  | flag (b : Bool)
  | overflow
  deriving DecidableEq, Repr

/-- An exact signed result, or overflow when it does not fit in a word. -/
def exact (x : Int) : Out := if -2 ^ 63 ≤ x ∧ x < 2 ^ 63 then .word (BitVec.ofInt 64 x) else .overflow

/-- The operations.  `none` is a call that the documentation does not allow: a shift or an index that is not below 64, a
field that leaves the word, division by zero. -/
def run : Prim → List (BitVec 64) → Option Out
  | .logand, [x, y] => some (.word (x &&& y))
  | .logior, [x, y] => some (.word (x ||| y))
  | .logxor, [x, y] => some (.word (x ^^^ y))
  | .lognot, [x] => some (.word (~~~ x))
  | .logbit, [i, y] => if i.toNat < 64 then some (.flag (y.getLsbD i.toNat)) else none
  | .logbitSet, [i, y] => if i.toNat < 64 then some (.word (y ||| (1#64 <<< i.toNat))) else none
  | .logbitClear, [i, y] => if i.toNat < 64 then some (.word (y &&& ~~~ (1#64 <<< i.toNat))) else none
  | .fieldExtract, [o, s, x] =>
    if o.toNat + s.toNat ≤ 64 then some (.word ((x.extractLsb' o.toNat s.toNat).setWidth 64)) else none
  | .fieldDeposit, [f, o, s, x] =>
    if o.toNat + s.toNat ≤ 64 then
      some (.word ((x &&& ~~~ ((BitVec.allOnes s.toNat).setWidth 64 <<< o.toNat)) ||| (f <<< o.toNat))) else none
  | .add, [x, y] => some (.word (x + y))
  | .subtract, [x, y] => some (.word (x - y))
  | .multiplyLow, [x, y] => some (.word (x * y))
  | .negative, [x] => some (.word (- x))
  | .abs, [x] => some (.word (if x.toInt < 0 then - x else x))
  | .floorQuotient, [x, y] => if y.toInt = 0 then none else some (exact (x.toInt.fdiv y.toInt))
  | .floorRemainder, [x, y] => if y.toInt = 0 then none else some (exact (x.toInt.fmod y.toInt))
  | .shiftLeftLow, [x, n] => if n.toNat < 64 then some (.word (x <<< n.toNat)) else none
  | .shiftRight, [x, n] => if n.toNat < 64 then some (.word (x.sshiftRight n.toNat)) else none
  | .unsignedShiftRight, [x, n] => if n.toNat < 64 then some (.word (x >>> n.toNat)) else none
  | .addSignal, [x, y] => some (exact (x.toInt + y.toInt))
  | .subtractSignal, [x, y] => some (exact (x.toInt - y.toInt))
  | .multiplySignal, [x, y] => some (exact (x.toInt * y.toInt))
  | .negativeSignal, [x] => some (exact (- x.toInt))
  | .absSignal, [x] => some (exact (if x.toInt < 0 then - x.toInt else x.toInt))
  | .shiftLeftSignal, [x, n] => if n.toNat < 64 then some (exact (x.toInt * 2 ^ n.toNat)) else none
  | .equal, [x, y] => some (.flag (decide (x = y)))
  | .notEqual, [x, y] => some (.flag (decide (x ≠ y)))
  | .less, [x, y] => some (.flag (decide (x.toInt < y.toInt)))
  | .notLess, [x, y] => some (.flag (decide (y.toInt ≤ x.toInt)))
  | .greater, [x, y] => some (.flag (decide (y.toInt < x.toInt)))
  | .notGreater, [x, y] => some (.flag (decide (x.toInt ≤ y.toInt)))
  | .unsignedLess, [x, y] => some (.flag (decide (x.toNat < y.toNat)))
  | .unsignedNotLess, [x, y] => some (.flag (decide (y.toNat ≤ x.toNat)))
  | .unsignedGreater, [x, y] => some (.flag (decide (y.toNat < x.toNat)))
  | .unsignedNotGreater, [x, y] => some (.flag (decide (x.toNat ≤ y.toNat)))
  | _, _ => none

/-- The word that a constant stands for. -/
def wordOf (x : Int) : BitVec 64 := BitVec.ofInt 64 x

/-- What a call that was replaced by a constant does. -/
def outOf : Result → Out
  | .number x => .word (wordOf x)
  | .flag b => .flag b

/-- The values that constants have: an `<integer>`, or a `<double-integer>` cut to a word. -/
def Constant (x : Int) : Prop := (-2 ^ 61 ≤ x ∧ x < 2 ^ 61) ∨ (0 ≤ x ∧ x < 2 ^ 64)

end Verif.MwFold
