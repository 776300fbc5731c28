import Verif.Integer.Model
/-
Model of the double-width and flag-returning machine-word primitives, in the
two implementations that exist: the C run-time on a 64-bit target
(sources/lib/run-time/c-primitives-math.c and the macros in run-time.h) and the
LLVM back end (sources/dfmc/llvm-back-end/llvm-primitives-machine-word.dylan).

Words and outcomes (`Word`, `Out`) are those of `Verif.Integer.Model`.  `poison`
is undefined behaviour: in C a signed result that is not representable or a
shift count outside the word, in LLVM a poison value.
-/
namespace Verif.MachineWord
open Verif.Integer

/-- A double word (`iDoubleWord`). -/
abbrev Double := BitVec 128

/-! ## C run-time

On x86_64 (and the other 64-bit targets) `NO_LONGLONG` is defined and
`LONG_BIT` is 64, `WORD_BIT` 32 (c-primitives-math.c 8-16). -/
namespace C

/-- `LOHALF` (c-primitives-math.c 12). -/
def lohalf (x : Word) : Word := x &&& 0xFFFFFFFF
/-- `HIHALF` (c-primitives-math.c 13). -/
def hihalf (x : Word) : Word := (x &&& 0xFFFFFFFF00000000) >>> 32

/-- A C shift `x << y` or `x >> y` of an unsigned 64-bit value: undefined unless
`0 <= y < 64`. -/
def ushl (x y : Word) : Out Word := if y.toNat < 64 then .ok (x <<< y.toNat) else .poison
@[inherit_doc ushl]
def ushr (x y : Word) : Out Word := if y.toNat < 64 then .ok (x >>> y.toNat) else .poison

/-- `multiply_double` (c-primitives-math.c 476-494, `NO_LONGLONG` branch);
result low, high. -/
def multiplyDouble (x y : Word) : Word × Word :=
  let xl := lohalf x
  let xh := hihalf x
  let yl := lohalf y
  let yh := hihalf y
  let zll := xl * yl
  let zlh := xl * yh
  let zhl := xh * yl
  let zhh := xh * yh
  (zll + ((lohalf zlh + lohalf zhl) <<< 32), zhh + hihalf zlh + hihalf zhl)

/-- `primitive_machine_word_add_with_overflow` (496-500). -/
def addWithOverflow (x y : Word) : Word × Bool :=
  let r := x + y
  (r, !(x ^^^ y).slt 0 && (r ^^^ x).slt 0)

/-- `primitive_machine_word_subtract_with_overflow` (501-505). -/
def subtractWithOverflow (x y : Word) : Word × Bool :=
  let r := x - y
  (r, (x ^^^ y).slt 0 && (r ^^^ x).slt 0)

/-- `primitive_machine_word_multiply_with_overflow` (506-511); low, high, flag. -/
def multiplyWithOverflow (x y : Word) : Word × Word × Bool :=
  let (rl, rh) := multiplyDouble x y
  (rl, rh, if (x ^^^ y).slt 0 then !rh.slt 0 else rh.slt 0)

/-- `primitive_machine_word_negative_with_overflow` (512-516): `- x` on the
signed type. -/
def negativeWithOverflow (x : Word) : Out (Word × Bool) := do
  let r ← subNsw 0 x
  .ok (r, x.slt 0 && !(0 : Word).slt r)

/-- `labs`: undefined for the most negative value. -/
def labs (x : Word) : Out Word := if x.slt 0 then subNsw 0 x else .ok x

/-- `primitive_machine_word_abs_with_overflow` (517-521). -/
def absWithOverflow (x : Word) : Out (Word × Bool) := do
  let r ← labs x
  .ok (r, x.slt 0 && !(0 : Word).slt r)

/-- `primitive_machine_word_shift_left_with_overflow` (522-524): the flag is the
constant 0.  `shift_left_low` is `(DMINT)x << i` (run-time.h 1665), undefined
(C99 6.5.7) for a negative `x` and when the product is not representable. -/
def shiftLeftWithOverflow (x y : Word) : Out (Word × Bool) := do
  if y.toNat < 64 ∧ 0 ≤ x.toInt ∧ InWord (x.toInt * 2 ^ y.toNat) then
    .ok (x <<< y.toNat, false)
  else .poison

/-- `primitive_machine_word_multiply_low_with_overflow` (536-540): signed
product, then the heuristic flag.  The disjunction is evaluated left to right
and `labs` only as far as needed. -/
def multiplyLowWithOverflow (x y : Word) : Out (Word × Bool) := do
  if InWord (x.toInt * y.toInt) then
    let r := x * y
    if (if (x ^^^ y).slt 0 then !r.slt 0 else r.slt 0) then .ok (r, true)
    else
      let ar ← labs r
      let ax ← labs x
      if ar.slt ax then .ok (r, true)
      else
        let ay ← labs y
        .ok (r, ar.slt ay)
  else .poison

/-- `primitive_machine_word_unsigned_add_with_carry` (542-548). -/
def unsignedAddWithCarry (ux uy : Word) : Word × Word :=
  let uz := ux + uy
  let bbc : Word := if ux &&& 1 ≠ 0 ∧ uy &&& 1 ≠ 0 then 1 else 0
  (uz, if ((ux >>> 1) + (uy >>> 1) + bbc).slt 0 then 1 else 0)

/-- `primitive_machine_word_unsigned_subtract_with_borrow` (549-554). -/
def unsignedSubtractWithBorrow (ux uy : Word) : Word × Word :=
  (ux - uy, if ux.ult uy then 1 else 0)

/-- `unsigned_divide_double` (296-310, `NO_LONGLONG` branch). -/
def unsignedDivideDouble (xl xh y : Word) : Out (Word × Word) :=
  let dividend := (lohalf xh <<< 32) + lohalf xl
  if y = 0 then .trap else .ok (dividend / y, dividend % y)

/-- `primitive_machine_word_unsigned_divide` (565-569). -/
def unsignedDivide (x y : Word) : Out (Word × Word) :=
  unsignedDivideDouble x (if x.slt 0 then -1 else 0) y

/-- `divide_double` (277-294, `NO_LONGLONG` branch).  The signed shift is
undefined when the low half of `xh` is `2^31` or more; the sum then cannot
overflow. -/
def divideDouble (xl xh y : Word) : Out (Word × Word) := do
  if (lohalf xh).toNat < 2 ^ 31 then
    let dividend := (lohalf xh <<< 32) + lohalf xl
    let q ← sdiv dividend y
    let r ← srem dividend y
    if xh.slt 0 && (0 : Word).slt xl then
      let q ← subNsw 0 q
      let r ← subNsw 0 r
      .ok (q, r)
    else .ok (q, r)
  else .poison

/-- `primitive_machine_word_unsigned_rotate_left` (570-574). -/
def rotateLeft (x y : Word) : Out Word := do
  let low ← ushr x (64 - y)
  let high ← ushl x y
  .ok (low ||| high)

/-- `primitive_machine_word_unsigned_rotate_right` (575-579). -/
def rotateRight (x y : Word) : Out Word := do
  let high ← ushl x (64 - y)
  let low ← ushr x y
  .ok (low ||| high)

/-- `primitive_machine_word_unsigned_double_shift_left` (605-609); low, high. -/
def doubleShiftLeft (xl xh y : Word) : Out (Word × Word) := do
  let lowpart ← ushr xl (64 - y)
  let highpart ← ushl xh y
  let l ← ushl xl y
  .ok (l, lowpart ||| highpart)

/-- `primitive_machine_word_unsigned_double_shift_right` (619-623); low, high. -/
def doubleShiftRight (xl xh y : Word) : Out (Word × Word) := do
  let lowpart ← ushr xl y
  let highpart ← ushl xh (64 - y)
  let h ← ushr xh y
  .ok (lowpart ||| highpart, h)

/-- `primitive_machine_word_bit_field_extract` (run-time.h 1605): the mask is
computed in `int`, so `1 << s` needs `s < 31` (C99 6.5.7) and the shift of the
mask by `o` must stay within `int`.  The `int` mask (non-negative) is converted
to `long`. -/
def bitFieldExtract (o s x : Word) : Out Word :=
  if s.toNat < 31 ∧ o.toNat < 32 ∧ (2 ^ s.toNat - 1) * 2 ^ o.toNat < 2 ^ 31 then
    .ok ((x &&& BitVec.ofNat 64 ((2 ^ s.toNat - 1) * 2 ^ o.toNat)).sshiftRight o.toNat)
  else .poison

/-- An `<abstract-integer>`: a tagged `<integer>` or a `<double-integer>` with
its two words. -/
inductive Abstract where
  | fixed (w : Word)
  | double (low high : Word)
  deriving DecidableEq, Repr

/-- `I(x)`: `(x << 2) | 1` (run-time.h, `I` macro). -/
def I (x : Word) : Word := (x <<< 2) ||| 1

/-- `primitive_wrap_abstract_integer` (132-144). -/
def wrapAbstract (x : Word) : Abstract :=
  let mask : Word := (-1 : Word) <<< 61
  let hs := x &&& mask
  if hs ≠ 0 ∧ hs ≠ mask then .double x (if x.slt 0 then -1 else 0) else .fixed (I x)

/-- `primitive_wrap_unsigned_abstract_integer` (146-157).  The allocated object
is filled with zeros, so the high word is 0. -/
def wrapUnsigned (x : Word) : Abstract :=
  if x &&& ((-1 : Word) <<< 62) ≠ 0 then .double x 0 else .fixed (I x)

end C

/-! ## LLVM back end -/
namespace LLVM
open C (Abstract I)

/-- `op--split-double-integer` (llvm-primitives-machine-word.dylan 12-27);
low, high. -/
def split (full : Double) : Word × Word :=
  (full.truncate 64, (full >>> 64).truncate 64)

/-- `op--double-integer-merge` (30-44). -/
def merge (low high : Word) : Double :=
  (high.zeroExtend 128 <<< 64) ||| low.zeroExtend 128

/-- `ins--shl` on a double word whose count was sign-extended from a word. -/
def shl128 (x : Double) (s : Word) : Out Double :=
  if (s.signExtend 128).toNat < 128 then .ok (x <<< (s.signExtend 128).toNat) else .poison
/-- `ins--lshr` on a double word, likewise. -/
def lshr128 (x : Double) (s : Word) : Out Double :=
  if (s.signExtend 128).toNat < 128 then .ok (x >>> (s.signExtend 128).toNat) else .poison

/-- `primitive-machine-word-multiply-high` (368-386). -/
def multiplyHigh (x y : Word) : Word :=
  ((x.signExtend 128 * y.signExtend 128).sshiftRight 64).truncate 64

/-- `primitive-machine-word-multiply-low/high` (388-403). -/
def multiplyLowHigh (x y : Word) : Word × Word :=
  split (x.signExtend 128 * y.signExtend 128)

/-- `primitive-machine-word-multiply-low-with-overflow` (405-415):
`llvm.smul.with.overflow` on words. -/
def multiplyLowWithOverflow (x y : Word) : Word × Bool :=
  (x * y, decide ¬ InWord (x.toInt * y.toInt))

/-- `primitive-machine-word-multiply-with-overflow` (417-442):
`llvm.smul.with.overflow` on double words. -/
def multiplyWithOverflow (x y : Word) : Word × Word × Bool :=
  let dx := x.signExtend 128
  let dy := y.signExtend 128
  let (l, h) := split (dx * dy)
  (l, h, decide ¬ (-2 ^ 127 ≤ dx.toInt * dy.toInt ∧ dx.toInt * dy.toInt < 2 ^ 127))

/-- `primitive-machine-word-unsigned-multiply` (1176-1190). -/
def unsignedMultiply (x y : Word) : Word × Word :=
  split (x.zeroExtend 128 * y.zeroExtend 128)

/-- `primitive-machine-word-shift-left-with-overflow` (809-827). -/
def shiftLeftWithOverflow (x s : Word) : Out (Word × Word × Bool) := do
  let full ← shl128 (x.zeroExtend 128) s
  let unfull ← lshr128 full s
  let (l, h) := split full
  .ok (l, h, x.zeroExtend 128 != unfull)

/-- `primitive-machine-word-double-divide` (1091-1107).  `sdiv`/`srem` on double
words: zero divisor traps, the unrepresentable quotient is undefined. -/
def doubleDivide (low high divisor : Word) : Out (Word × Word) :=
  let n := merge low high
  let d : Double := divisor.signExtend 128
  if d = 0 then .trap
  else if n = BitVec.intMin 128 ∧ d = -1 then .poison
  else .ok ((n.sdiv d).truncate 64, (n.srem d).truncate 64)

/-- `primitive-machine-word-double-floor/` (975-984). -/
def doubleFloor (low high divisor : Word) : Out (Word × Word) := do
  let (q, r) ← doubleDivide low high divisor
  floorAdjust divisor q r

/-- `primitive-machine-word-double-ceiling/` (1006-1015). -/
def doubleCeiling (low high divisor : Word) : Out (Word × Word) := do
  let (q, r) ← doubleDivide low high divisor
  ceilingAdjust divisor q r

/-- `primitive-machine-word-unsigned-double-divide` (1255-1272). -/
def unsignedDoubleDivide (low high divisor : Word) : Out (Word × Word) :=
  let n := merge low high
  let d : Double := divisor.zeroExtend 128
  if d = 0 then .trap else .ok ((n / d).truncate 64, (n % d).truncate 64)

/-- `primitive-machine-word-unsigned-rotate-left` (1211-1218). -/
def rotateLeft (x s : Word) : Out Word := do
  let a ← C.ushl x s
  let b ← C.ushr x (64 - s)
  .ok (b ||| a)

/-- `primitive-machine-word-unsigned-rotate-right` (1220-1227). -/
def rotateRight (x s : Word) : Out Word := do
  let b ← C.ushr x s
  let a ← C.ushl x (64 - s)
  .ok (a ||| b)

/-- `primitive-machine-word-unsigned-double-shift-left` (1292-1304). -/
def doubleShiftLeft (low high s : Word) : Out (Word × Word) := do
  let f ← shl128 (merge low high) s
  .ok (split f)

/-- `primitive-machine-word-unsigned-double-shift-right` (1326-1338). -/
def doubleShiftRight (low high s : Word) : Out (Word × Word) := do
  let f ← lshr128 (merge low high) s
  .ok (split f)

/-- `machine-word-unsigned-shift-left` (machine-word-lowlevel.dylan 396-404):
the high word of the double shift of `x:0`. -/
def unsignedShiftLeft (x s : Word) : Out Word := do
  let (_, h) ← doubleShiftLeft 0 x s
  .ok h

/-- `primitive-wrap-abstract-integer` (137-178). -/
def wrapAbstract (x : Word) : Abstract :=
  let maxFixed : Word := BitVec.ofInt 64 (2 ^ 61 - 1)
  let minFixed : Word := BitVec.ofInt 64 (-2 ^ 61)
  if maxFixed.slt x then .double x 0
  else if x.slt minFixed then .double x (-1)
  else .fixed (I x)

/-- `primitive-wrap-unsigned-abstract-integer` (180-212). -/
def wrapUnsigned (x : Word) : Abstract :=
  let maxFixed : Word := BitVec.ofInt 64 (2 ^ 61 - 1)
  if maxFixed.ult x then .double x 0 else .fixed (I x)

end LLVM
end Verif.MachineWord
