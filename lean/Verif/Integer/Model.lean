/-
Model of fixed-precision integers as the LLVM back end compiles them for a
64-bit target.

Sources:
* sources/dylan/integer.dylan                       (the methods on <integer>)
* sources/dylan/conversion-tagged-integer.dylan     (tagging)
* sources/dfmc/llvm-back-end/llvm-primitives-machine-word.dylan (primitives)

A machine word is a `BitVec 64`.  An `<integer>` is represented by the word
that holds it (value shifted left by two, low bits `01`).
-/
namespace Verif.Integer

/-- A machine word of the 64-bit target
(`<raw-machine-word>`, llvm-primitives-machine-word.dylan). -/
abbrev Word := BitVec 64

/-- Result of running a piece of code.
* `overflow`: `op--overflow-trap` ran, i.e. `<arithmetic-overflow-error>` is
  signalled (llvm-primitives-machine-word.dylan 835-953);
* `trap`: a division instruction was executed with a zero divisor;
* `poison`: LLVM gives the instruction no defined value (shift count outside
  the word, violated `nsw`, `sdiv` overflow);
* `error`: a Dylan `error` call;
* `diverge`: the loop ran out of the given number of steps. -/
inductive Out (α : Type) where
  | ok (a : α)
  | overflow
  | trap
  | poison
  | error
  | diverge
  deriving Repr, DecidableEq

/-- Sequencing: any abnormal result ends the computation. -/
@[simp] def Out.bind {α β : Type} : Out α → (α → Out β) → Out β
  | .ok a, f => f a
  | .overflow, _ => .overflow
  | .trap, _ => .trap
  | .poison, _ => .poison
  | .error, _ => .error
  | .diverge, _ => .diverge

instance : Monad Out where
  pure := .ok
  bind := Out.bind

/-- Signed range of a machine word. -/
def InWord (n : Int) : Prop := -2 ^ 63 ≤ n ∧ n < 2 ^ 63

instance (n : Int) : Decidable (InWord n) := by unfold InWord; infer_instance

/-! ### LLVM primitives -/

/-- `ins--shl`: poison unless the count is below the word size
(used at llvm-primitives-machine-word.dylan 273, 299, 780, 945).  The count is
the signed value of the count word; a negative one is a huge unsigned count. -/
def shl (x : Word) (s : Int) : Out Word :=
  if 0 ≤ s ∧ s < 64 then .ok (x <<< s.toNat) else .poison

/-- `ins--lshr` (llvm-primitives-machine-word.dylan 311, 1232). -/
def lshr (x : Word) (s : Int) : Out Word :=
  if 0 ≤ s ∧ s < 64 then .ok (x >>> s.toNat) else .poison

/-- `ins--ashr` (llvm-primitives-machine-word.dylan 829-833). -/
def ashr (x : Word) (s : Int) : Out Word :=
  if 0 ≤ s ∧ s < 64 then .ok (x.sshiftRight s.toNat) else .poison

/-- `primitive-machine-word-add-signal-overflow`
(llvm-primitives-machine-word.dylan 835-853): `llvm.sadd.with.overflow`. -/
def addO (x y : Word) : Out Word :=
  if InWord (x.toInt + y.toInt) then .ok (x + y) else .overflow

/-- `primitive-machine-word-subtract-signal-overflow` (855-873). -/
def subO (x y : Word) : Out Word :=
  if InWord (x.toInt - y.toInt) then .ok (x - y) else .overflow

/-- `primitive-machine-word-multiply-signal-overflow` (875-893). -/
def mulO (x y : Word) : Out Word :=
  if InWord (x.toInt * y.toInt) then .ok (x * y) else .overflow

/-- `primitive-machine-word-negative-signal-overflow` (895-912): `0 - x`. -/
def negO (x : Word) : Out Word := subO 0 x

/-- `primitive-machine-word-abs-signal-overflow` (914-935): the overflow flag
of `0 - x` is tested before the sign of `x` selects the result. -/
def absO (x : Word) : Out Word := do
  let n ← subO 0 x
  .ok (if x.slt 0 then n else x)

/-- `primitive-machine-word-shift-left-signal-overflow` (937-953): shift left,
shift back arithmetically, compare. -/
def shlO (x : Word) (s : Int) : Out Word := do
  let r ← shl x s
  let u ← ashr r s
  if x ≠ u then .overflow else .ok r

/-- `primitive-machine-word-logbit?` (271-277). -/
def logbitW (index : Int) (y : Word) : Out Bool := do
  let mask ← shl 1 index
  .ok (y &&& mask != 0)

/-- `primitive-machine-word-logbit-set` (279-284). -/
def logbitSetW (index : Int) (y : Word) : Out Word := do
  let mask ← shl 1 index
  .ok (y ||| mask)

/-- `primitive-machine-word-logbit-clear` (286-292). -/
def logbitClearW (index : Int) (y : Word) : Out Word := do
  let mask ← shl 1 index
  .ok (y &&& (mask ^^^ -1))

/-- `primitive-machine-word-bit-field-deposit` (294-304). -/
def bitFieldDepositW (field : Word) (offset size : Int) (x : Word) : Out Word := do
  let shiftedField ← shl field offset
  let one ← shl 1 size
  let mask := one - 1
  let shiftedMask ← shl mask offset
  let maskedX := x &&& (shiftedMask ^^^ -1)
  .ok (shiftedField ||| maskedX)

/-- `primitive-machine-word-bit-field-extract` (306-313). -/
def bitFieldExtractW (offset size : Int) (x : Word) : Out Word := do
  let one ← shl 1 size
  let mask := one - 1
  let shiftedX ← lshr x offset
  .ok (shiftedX &&& mask)

/-! ### Tagging (conversion-tagged-integer.dylan) -/

/-- The word representing the `<integer>` with value `n`: two tag bits `01`
(`$integer-tag-value`, `$integer-tag-width`, conversion-tagged-integer.dylan
10-11).  This is the representation function, not a run-time operation. -/
def tag (n : Int) : Word := BitVec.ofInt 64 (4 * n + 1)

/-- `strip-integer-tag` (35-38). -/
def strip (x : Word) : Word := x - 1
/-- `insert-integer-tag` (40-43). -/
def insert (x : Word) : Word := x + 1
/-- `force-integer-tag` (45-48), with `$integer-tag-mask` (12-13). -/
def force (x : Word) : Word := insert (x &&& BitVec.ofInt 64 (-4))

/-- `coerce-integer-to-machine-word` (68-75): arithmetic shift right by the
tag width.  (A constant count, so never poison.) -/
def untag (x : Word) : Word := x.sshiftRight 2

/-- The signed value passed to a primitive when an `<integer>` argument is
used as a count or position: `integer-as-raw` of it (machine-word-lowlevel.dylan
86-404 unwrap their arguments this way). -/
def raw (x : Word) : Int := (untag x).toInt

/-- `coerce-machine-word-to-integer` (53-63). -/
def coerce (x : Word) : Out Word := do
  let bits ← shlO x 2
  .ok (insert bits)

/-- `machine-word-is-integer?` (82-88): shift right by
`word-size() - $integer-tag-width - 1` and compare with 0 and -1. -/
def isInteger (x : Word) : Bool :=
  let s := x.sshiftRight 61
  s == 0 || s == -1

/-! ### Methods on <integer> (integer.dylan) -/

/-- `\=` (95-99). -/
def eqI (x y : Word) : Bool := x == y
/-- `\<` (101-105). -/
def ltI (x y : Word) : Bool := x.slt y

/-- `\+` (136-142). -/
def plus (x y : Word) : Out Word := addO x (strip y)
/-- `\-` (144-150). -/
def minus (x y : Word) : Out Word := subO x (strip y)
/-- `\*` (152-158). -/
def times (x y : Word) : Out Word := do
  let r ← mulO (strip x) (untag y)
  .ok (insert r)
/-- `negative` (210-221). -/
def negative (x : Word) : Out Word := do
  let r ← negO (strip x)
  .ok (insert r)
/-- `abs` (210-222). -/
def abs (x : Word) : Out Word := do
  let r ← absO (strip x)
  .ok (insert r)

/-- `binary-logior` (276). -/
def binaryLogior (x y : Word) : Word := x ||| y
/-- `binary-logand` (277). -/
def binaryLogand (x y : Word) : Word := x &&& y
/-- `binary-logxor` (278). -/
def binaryLogxor (x y : Word) : Word := force (x ^^^ y)
/-- `logior` (249-251): `reduce` from 0. -/
def logior (xs : List Word) : Word := xs.foldl binaryLogior (tag 0)
/-- `logxor` (253-255): `reduce` from 0. -/
def logxor (xs : List Word) : Word := xs.foldl binaryLogxor (tag 0)
/-- `logand` (257-259): `reduce` from -1. -/
def logand (xs : List Word) : Word := xs.foldl binaryLogand (tag (-1))
/-- `lognot` (280-283). -/
def lognot (x : Word) : Word := force (x ^^^ -1)

/-- `logbit?` (285-289). -/
def logbit (index x : Word) : Out Bool := do
  let off ← plus index (tag 2)
  logbitW (raw off) x

/-- `logbit-deposit` (291-297); `machine-word-logbit-deposit` chooses the set
or clear primitive by the boolean. -/
def logbitDeposit (z : Bool) (index x : Word) : Out Word := do
  let off ← plus index (tag 2)
  if z then logbitSetW (raw off) x else logbitClearW (raw off) x

/-- `bit-field-extract` (299-308). -/
def bitFieldExtract (offset size x : Word) : Out Word := do
  let sz ← plus size (tag 2)
  let r ← bitFieldExtractW (raw offset) (raw sz) x
  .ok (force r)

/-- `bit-field-deposit` (310-321). -/
def bitFieldDeposit (field offset size x : Word) : Out Word := do
  let off ← plus offset (tag 2)
  bitFieldDepositW (untag field) (raw off) (raw size) x

/-- `ash-right` (331-342). -/
def ashRight (x shift : Word) : Out Word :=
  if ltI shift (tag 64) then do
    let r ← ashr x (raw shift)
    .ok (force r)
  else
    .ok (if ltI x (tag 0) then tag (-1) else tag 0)

/-- `ash-left` (344-359).  `min` on integers picks the smaller by `\<`. -/
def ashLeft (x shift : Word) : Out Word := do
  let shift := if ltI shift (tag 64) then shift else tag 64
  let mx := strip x
  if eqI shift (tag 64) then
    let shift := tag 32
    let mx ← shlO mx (raw shift)
    let r ← shlO mx (raw shift)
    .ok (insert r)
  else
    let r ← shlO mx (raw shift)
    .ok (insert r)

/-- `ash` (323-329). -/
def ash (x shift : Word) : Out Word :=
  if ltI shift (tag 0) then do
    let s ← negative shift
    ashRight x s
  else ashLeft x shift

/-- `lsh-right` (370-381). -/
def lshRight (x shift : Word) : Out Word :=
  if ltI shift (tag 64) then do
    let r ← lshr x (raw shift)
    .ok (force r)
  else .ok (tag 0)

/-- `lsh-left` (383-393).  `machine-word-unsigned-shift-left`
(machine-word-lowlevel.dylan 396-404) is the high word of the double-word shift
of `x:0`, i.e. a plain `shl` for counts below 64. -/
def lshLeft (x shift : Word) : Out Word :=
  if ltI shift (tag 64) then do
    let r ← shl (strip x) (raw shift)
    .ok (insert r)
  else .ok (tag 0)

/-- `lsh` (361-367). -/
def lsh (x shift : Word) : Out Word :=
  if ltI shift (tag 0) then do
    let s ← negative shift
    lshRight x s
  else lshLeft x shift

/-! ### Division primitives (llvm-primitives-machine-word.dylan) -/

/-- `ins--sdiv`: zero divisor traps, the one unrepresentable quotient is
undefined. -/
def sdiv (x y : Word) : Out Word :=
  if y = 0 then .trap
  else if x = BitVec.intMin 64 ∧ y = -1 then .poison
  else .ok (x.sdiv y)

/-- `ins--srem`, same conditions. -/
def srem (x y : Word) : Out Word :=
  if y = 0 then .trap
  else if x = BitVec.intMin 64 ∧ y = -1 then .poison
  else .ok (x.srem y)

/-- `ins--add` with `no-signed-wrap?: #t`. -/
def addNsw (x y : Word) : Out Word :=
  if InWord (x.toInt + y.toInt) then .ok (x + y) else .poison
/-- `ins--sub` with `no-signed-wrap?: #t`. -/
def subNsw (x y : Word) : Out Word :=
  if InWord (x.toInt - y.toInt) then .ok (x - y) else .poison

/-- The `decrease` block (538-541, 726-729). -/
def decrease (div rem divisor : Word) : Out (Word × Word) := do
  let d ← addNsw div (-1)
  let r ← addNsw rem divisor
  .ok (d, r)

/-- The `increase` block (613-616, 720-723). -/
def increase (div rem divisor : Word) : Out (Word × Word) := do
  let d ← addNsw div 1
  let r ← subNsw rem divisor
  .ok (d, r)

/-- `op--machine-word-floor/` (507-551). -/
def floorAdjust (divisor div rem : Word) : Out (Word × Word) :=
  if rem = 0 then .ok (div, 0)
  else if divisor.slt 0 then
    if (0 : Word).slt rem then decrease div rem divisor else .ok (div, rem)
  else
    if rem.slt 0 then decrease div rem divisor else .ok (div, rem)

/-- `op--machine-word-ceiling/` (582-626). -/
def ceilingAdjust (divisor div rem : Word) : Out (Word × Word) :=
  if rem = 0 then .ok (div, 0)
  else if divisor.slt 0 then
    if rem.slt 0 then increase div rem divisor else .ok (div, rem)
  else
    if (0 : Word).slt rem then increase div rem divisor else .ok (div, rem)

/-- `op--machine-word-round/` (657-737): `threshold` is half the absolute value
of the divisor, rounded down. -/
def roundAdjust (divisor div rem : Word) : Out (Word × Word) := do
  let divisorNegative := divisor.slt 0
  let absDivisor ← (if divisorNegative then subNsw 0 divisor else .ok divisor : Out Word)
  let threshold := absDivisor.sdiv 2
  let quotientEven := div &&& 1 == 0
  if threshold.slt rem || (rem == threshold && !quotientEven) then
    if divisorNegative then decrease div rem divisor else increase div rem divisor
  else
    let negThreshold := 0 - threshold
    if rem.slt negThreshold || (rem == negThreshold && !quotientEven) then
      if divisorNegative then increase div rem divisor else decrease div rem divisor
    else .ok (div, rem)

/-- `primitive-machine-word-floor/` (496-505). -/
def floorW (x y : Word) : Out (Word × Word) := do
  let d ← sdiv x y
  let r ← srem x y
  floorAdjust y d r

/-- `primitive-machine-word-ceiling/` (571-580). -/
def ceilingW (x y : Word) : Out (Word × Word) := do
  let d ← sdiv x y
  let r ← srem x y
  ceilingAdjust y d r

/-- `primitive-machine-word-round/` (646-655). -/
def roundW (x y : Word) : Out (Word × Word) := do
  let d ← sdiv x y
  let r ← srem x y
  roundAdjust y d r

/-- `primitive-machine-word-truncate/` (751-756). -/
def truncateW (x y : Word) : Out (Word × Word) := do
  let d ← sdiv x y
  let r ← srem x y
  .ok (d, r)

/-- `integer-division-definer` (integer.dylan 175-192): untag both arguments,
divide, coerce both results back. -/
def divisionMethod (prim : Word → Word → Out (Word × Word)) (x y : Word) :
    Out (Word × Word) := do
  let (q, r) ← prim (untag x) (untag y)
  let q ← coerce q
  let r ← coerce r
  .ok (q, r)

/-- `floor/` (integer.dylan 189). -/
def floorDiv := divisionMethod floorW
/-- `ceiling/` (integer.dylan 190). -/
def ceilingDiv := divisionMethod ceilingW
/-- `round/` (integer.dylan 191). -/
def roundDiv := divisionMethod roundW
/-- `truncate/` (integer.dylan 192). -/
def truncateDiv := divisionMethod truncateW

/-- `modulo` (integer.dylan 194-207): remainder of the floor primitive.
`raw-as-integer` tags without an overflow check. -/
def modulo (x y : Word) : Out Word := do
  let (_, r) ← floorW (untag x) (untag y)
  .ok (insert (r <<< 2))
/-- `remainder` (integer.dylan 194-208): remainder of the truncating primitive. -/
def remainder (x y : Word) : Out Word := do
  let r ← srem (untag x) (untag y)
  .ok (insert (r <<< 2))

/-! ### The C back end

`run-time.h` 1671-1684 ("The C run-time does no overflow checks") defines the
`…_signal_overflow` macros as the plain operations on the signed C type
`DMINT` (`long`, run-time.h 85), where an unrepresentable result is undefined
behaviour; `integer.dylan` is compiled to them unchanged. -/

/-- `\+` through `primitive_machine_word_add_signal_overflow`
(run-time.h 1673-1674). -/
def plusC (x y : Word) : Out Word := addNsw x (strip y)
/-- `\-` through `primitive_machine_word_subtract_signal_overflow`
(run-time.h 1675-1676). -/
def minusC (x y : Word) : Out Word := subNsw x (strip y)
/-- `\*` through `primitive_machine_word_multiply_signal_overflow`
(run-time.h 1677-1678). -/
def timesC (x y : Word) : Out Word :=
  if InWord ((strip x).toInt * (untag y).toInt) then .ok (insert (strip x * untag y))
  else .poison

end Verif.Integer
