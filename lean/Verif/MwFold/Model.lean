/-!
# Folding of operations on machine words

When the arguments of a primitive on machine words are constants, the compiler calls a function of its own, the
folder of the primitive, and puts the constant it returns in the place of the call.  This file models the folders of
`sources/dfmc/modeling/machine-word-primitives.dylan` (MP), the macros that define them in `primitive-macros.dylan`
(PM) and what they share, in `machine-word-primitives-support.dylan` (MS) and `raw-types.dylan` (RT).

Simplifications: compiler and target both have words of 64 bits, so that `word-size()` is 8 and `$machine-word-size`
is 64 (the code also allows them to differ); the characters that the extractors also take (MS:51-53, 59-61) are not
modelled; an error in a folder is `none`, since the compiler then leaves the call alone (`constant-folding.dylan`
308-326).  A number that is not an `<integer>` is a `<double-integer>` of 128 bits, and arithmetic that leaves that
range signals an error.  Of the dividing primitives only the two for the quotient and the remainder of `floor/` are
here; those of `ceiling/`, `round/` and `truncate/` (MP:241-279) are defined in the same way.
-/

namespace Verif.MwFold

/-- The primitives with a folder. -/
inductive Prim
  | logand | logior | logxor | lognot
  | logbit | logbitSet | logbitClear
  | fieldDeposit | fieldExtract
  | add | subtract | multiplyLow | negative | abs
  | floorQuotient | floorRemainder
  | shiftLeftLow | shiftRight | unsignedShiftRight
  | addSignal | subtractSignal | multiplySignal | negativeSignal | absSignal | shiftLeftSignal
  | equal | notEqual | less | notLess | greater | notGreater
  | unsignedLess | unsignedNotLess | unsignedGreater | unsignedNotGreater
  deriving DecidableEq, Repr

/-- The value of a constant: that of a raw integer or of a raw machine word, a number, or a boolean. -/
inductive Result
  | number (value : Int)
  | flag (value : Bool)
  deriving DecidableEq, Repr

/-- `instance?(x, <integer>)`: a tagged integer has 62 bits. -/
def isInteger (x : Int) : Bool := decide (-2 ^ 61 ≤ x ∧ x < 2 ^ 61)

/-- Arithmetic on `<double-integer>`s signals an error when the result does not fit in two words. -/
def double (x : Int) : Option Int := if -2 ^ 127 ≤ x ∧ x < 2 ^ 127 then some x else none

/-- `generic/logand` on two's complement numbers of 128 bits. -/
def dand (x y : Int) : Int := (BitVec.ofInt 128 x &&& BitVec.ofInt 128 y).toInt
/-- `generic/logior`. -/
def dor (x y : Int) : Int := (BitVec.ofInt 128 x ||| BitVec.ofInt 128 y).toInt
/-- `generic/logxor`. -/
def dxor (x y : Int) : Int := (BitVec.ofInt 128 x ^^^ BitVec.ofInt 128 y).toInt
/-- `generic/lognot`. -/
def dnot (x : Int) : Int := -x - 1
/-- `generic/ash`: to the left, or to the right when the count is negative. -/
def ash (x n : Int) : Option Int := if 0 ≤ n then double (x * 2 ^ n.toNat) else some (x / 2 ^ (-n).toNat)

/-- `logand(x, target-machine-word-mask())` (MS:12-30): the mask has 64 ones. -/
def masked (x : Int) : Int := x % 2 ^ 64

/-- `make-raw-literal` (RT:384-386, 398-400). -/
def literal (x : Int) : Int := if isInteger x then x else masked x

/-- `extract-mw-operand-unsigned` (MS:46-70). -/
def extractUnsigned (x : Int) : Int := masked x

/-- `sign-extend` (MS:72-76), with a shift of 64 (MS:36-41): a logical shift to the left in 128 bits and an arithmetic
one back. -/
def signExtend (x : Int) : Int := (masked x * 2 ^ 64).bmod (2 ^ 128) / 2 ^ 64

/-- `extract-mw-operand-signed` (MS:80-106). -/
def extractSigned (x : Int) : Int := if isInteger x then x else signExtend x

/-- `make-raw-literal-with-overflow` (MS:111-127). -/
def literalWithOverflow (x : Int) : Option Int :=
  if isInteger x then some (literal x)
  else
    let sign := dand x (dnot (2 ^ 64 - 1)) / 2 ^ 64
    let result := signExtend x
    if (sign = 0 ∧ ¬ result < 0) ∨ (sign = -1 ∧ result < 0) then some (literal x) else none

/-- What the definitions say of a primitive: whether its operands are sign-extended, and whether its result is checked
for overflow (PM:174-211). -/
def signed : Prim → Bool
  | .equal | .notEqual | .less | .notLess | .greater | .notGreater => true    -- MP:12-35
  | .negative | .abs => true                                                  -- MP:214, 220
  | .shiftLeftLow | .shiftRight => true                                       -- MP:293, 309
  | .negativeSignal | .absSignal | .shiftLeftSignal => true                   -- MP:329, 333, 337
  | _ => false

/-- The adjective `overflow` (MP:317-337). -/
def checked : Prim → Bool
  | .addSignal | .subtractSignal | .multiplySignal | .negativeSignal | .absSignal | .shiftLeftSignal => true
  | _ => false

/-- `bit-field-extract` (MP:147-152). -/
def bitFieldExtract (offset size x : Int) : Option Int :=
  (ash 1 size).bind fun ones => (ash (ones - 1) offset).bind fun mask => ash (dand x mask) (-offset)

/-- `bit-field-deposit` (MP:154-162). -/
def bitFieldDeposit (field offset size x : Int) : Option Int :=
  (ash 1 size).bind fun ones => (ash (ones - 1) offset).bind fun mask =>
    (ash field offset).map fun f => dor (dand x (dnot mask)) f

/-- The bodies of the folders, on extracted operands.  Number in, number out; `none` is an error. -/
def body : Prim → List Int → Option Result
  | .logand, [x, y] => some (.number (dand x y))                              -- MP:103-106
  | .logior, [x, y] => some (.number (dor x y))                               -- MP:107-110
  | .logxor, [x, y] => some (.number (dxor x y))                              -- MP:111-114
  | .lognot, [x] => some (.number (dnot x))                                   -- MP:115-118
  | .logbit, [i, y] => (ash 1 i).map fun b => .flag (decide (dand y b ≠ 0))   -- MP:119-122
  | .logbitSet, [i, y] => (ash 1 i).map fun b => .number (dor y b)            -- MP:126-129, 136-139
  | .logbitClear, [i, y] => (ash 1 i).map fun b => .number (dand y (dnot b))  -- MP:131-134, 140-143
  | .fieldExtract, [offset, size, x] => (bitFieldExtract offset size x).map .number            -- MP:170-174
  | .fieldDeposit, [field, offset, size, x] => (bitFieldDeposit field offset size x).map .number  -- MP:164-168
  | .add, [x, y] => (double (x + y)).map .number                              -- MP:183-186
  | .subtract, [x, y] => (double (x - y)).map .number                         -- MP:190-193
  | .multiplyLow, [x, y] => (double (x * y)).map .number                      -- MP:198-201
  | .negative, [x] => (double (-x)).map .number                               -- MP:214-217
  | .abs, [x] => (double (if x < 0 then -x else x)).map .number               -- MP:220-223
  | .floorQuotient, [x, y] => if y = 0 then none else some (.number (x.fdiv y))   -- MP:227-231
  | .floorRemainder, [x, y] => if y = 0 then none else some (.number (x.fmod y))  -- MP:232-237
  | .shiftLeftLow, [x, n] => (ash x n).map .number                            -- MP:293-296
  | .shiftRight, [x, n] => (ash x (-n)).map .number                           -- MP:309-312
  | .unsignedShiftRight, [x, n] => (ash x (-n)).map .number                   -- MP:447-450, `lsh` of a positive number
  | .addSignal, [x, y] => (double (x + y)).map .number                        -- MP:317-320
  | .subtractSignal, [x, y] => (double (x - y)).map .number                   -- MP:321-324
  | .multiplySignal, [x, y] => (double (x * y)).map .number                   -- MP:325-328
  | .negativeSignal, [x] => (double (-x)).map .number                         -- MP:329-332
  | .absSignal, [x] => (double (if x < 0 then -x else x)).map .number         -- MP:333-336
  | .shiftLeftSignal, [x, n] => (ash x n).map .number                         -- MP:337-340
  | .equal, [x, y] => some (.flag (decide (x = y)))                           -- MP:12-15
  | .notEqual, [x, y] => some (.flag (decide (x ≠ y)))                        -- MP:16-19
  | .less, [x, y] => some (.flag (decide (x < y)))                            -- MP:20-23
  | .notLess, [x, y] => some (.flag (decide (y ≤ x)))                         -- MP:24-27
  | .greater, [x, y] => some (.flag (decide (y < x)))                         -- MP:28-31
  | .notGreater, [x, y] => some (.flag (decide (x ≤ y)))                      -- MP:32-35
  | .unsignedLess, [x, y] => some (.flag (decide (x < y)))                    -- MP:403-406
  | .unsignedNotLess, [x, y] => some (.flag (decide (y ≤ x)))                 -- MP:407-410
  | .unsignedGreater, [x, y] => some (.flag (decide (y < x)))                 -- MP:411-414
  | .unsignedNotGreater, [x, y] => some (.flag (decide (x ≤ y)))              -- MP:415-418
  | _, _ => none

/-- The constant made of what the body returns (PM:225-236). -/
def finish (p : Prim) : Result → Option Result
  | .flag b => some (.flag b)
  | .number x => if checked p then (literalWithOverflow x).map .number else some (.number (literal x))

/-- The folder of a primitive, on the values of constants (PM:214-236). -/
def fold (p : Prim) (args : List Int) : Option Result :=
  (body p (args.map (if signed p then extractSigned else extractUnsigned))).bind (finish p)

end Verif.MwFold
