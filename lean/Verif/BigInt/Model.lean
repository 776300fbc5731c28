/-
Model of the integers of the `big-integers` library (`/repo/sources/lib/big-integers/double-integer.dylan`, here
"DI") and of the comparisons of `/repo/sources/dylan/double-integer-basics.dylan` ("DB"), as the LLVM back end
compiles them for a 64-bit target (`/repo/sources/dfmc/llvm-back-end/llvm-primitives-machine-word.dylan`, "LP").

An integer is a tagged word or a `<double-integer>` of two words.  Floats are left out.
-/
import Verif.MachineWord.Model

namespace Verif.BigInt
open Verif.Integer Verif.MachineWord

/-- `<integer>` of the library: a `dylan/<integer>` (a tagged word) or a `<double-integer>`
    (`double-integer-basics.dylan:8-43`). -/
inductive Big where
  | small (x : Word)
  | double (low high : Word)
  deriving DecidableEq

/-! ### Words -/

/-- `sign-word` (DI:25-31). -/
def signWord (x : Word) : Word := if x.slt 0 then -1 else 0

/-- `double-integer-is-integer?` (`conversion-tagged-integer.dylan:91-97`). -/
def isInteger (low high : Word) : Bool := high == low.sshiftRight 61 && (high == 0 || high == -1)

/-- `interpret-result-as-abstract-integer` (DI:33-40). -/
def interpret (low high : Word) : Out Big :=
  if isInteger low high then
    match coerce low with
    | .ok x => .ok (.small x)
    | .overflow => .overflow | .trap => .trap | .poison => .poison | .error => .error | .diverge => .diverge
  else .ok (.double low high)

/-- `llvm.sadd.with.overflow` (LP:336-346). -/
def addFlag (x y : Word) : Word × Bool := (x + y, decide ¬ InWord (x.toInt + y.toInt))

/-- `llvm.ssub.with.overflow`. -/
def subFlag (x y : Word) : Word × Bool := (x - y, decide ¬ InWord (x.toInt - y.toInt))

/-- `primitive-machine-word-unsigned-add-with-carry` (LP:1133-1143). -/
def addCarry (x y : Word) : Word × Word := (x + y, if x.toNat + y.toNat < 2 ^ 64 then 0 else 1)

/-- `primitive-machine-word-unsigned-subtract-with-borrow` (LP:1145-1155). -/
def subBorrow (x y : Word) : Word × Word := (x - y, if y.toNat ≤ x.toNat then 0 else 1)

/-- The words of an integer: those of a `<double-integer>`, or those a `dylan/<integer>` is promoted to
    (DI:105-108). -/
def Big.low : Big → Word
  | .small x => untag x
  | .double l _ => l

def Big.high : Big → Word
  | .small x => signWord (untag x)
  | .double _ h => h

/-- `negative?` (DB:128-130 for `<double-integer>`). -/
def Big.isNegative : Big → Bool
  | .small x => ltI x (tag 0)
  | .double _ h => h.slt 0

/-- `zero?` (DB:120-122 for `<double-integer>`). -/
def Big.isZero : Big → Bool
  | .small x => eqI x (tag 0)
  | .double _ _ => false

/-- `positive?` (DB:124-126 for `<double-integer>`). -/
def Big.isPositive : Big → Bool
  | .small x => ltI (tag 0) x
  | x => !x.isZero && !x.isNegative

/-- `odd?` (DB:110-112 for `<double-integer>`; `integer.dylan:107-110`, bit 0 above the tag). -/
def Big.isOdd : Big → Bool
  | .small x => (untag x).getLsbD 0
  | .double l _ => l.getLsbD 0

/-! ### Comparison -/

/-- `=` (DB:86-94). -/
def equal : Big → Big → Bool
  | .small x, .small y => eqI x y
  | .double xl xh, .double yl yh => xl == yl && xh == yh
  | _, _ => false

/-- `<` (DB:96-108). -/
def less : Big → Big → Bool
  | .small x, .small y => ltI x y
  | .double xl xh, .double yl yh => xh.slt yh || (xh == yh && xl.ult yl)
  | .small _, y => y.isPositive
  | x, .small _ => x.isNegative

/-! ### Addition and subtraction -/

/-- The `<double-integer>` body of `+` (DI:157-164). -/
def plusWords (xl xh yl yh : Word) : Out Big := do
  let high ← addO xh yh
  let high ← addO high (addCarry xl yl).2
  interpret (addCarry xl yl).1 high

/-- `+` (DI:137-165). -/
def plus : Big → Big → Out Big
  | .small x, .small y =>
    let r := addFlag x (strip y)
    if r.2 then do
      let mx := untag x
      let my := untag y
      let high ← addO (signWord mx) (signWord my)
      let high ← addO high (addCarry mx my).2
      .ok (.double (addCarry mx my).1 high)
    else .ok (.small r.1)
  | x, y => plusWords x.low x.high y.low y.high

/-- The `<double-integer>` body of `-` (DI:187-194). -/
def minusWords (xl xh yl yh : Word) : Out Big := do
  let high ← subO xh yh
  let high ← subO high (subBorrow xl yl).2
  interpret (subBorrow xl yl).1 high

/-- `-` (DI:167-195). -/
def minus : Big → Big → Out Big
  | .small x, .small y =>
    let r := subFlag x (strip y)
    if r.2 then do
      let mx := untag x
      let my := untag y
      let high ← subO (signWord mx) (signWord my)
      let high ← subO high (subBorrow mx my).2
      .ok (.double (subBorrow mx my).1 high)
    else .ok (.small r.1)
  | x, y => minusWords x.low x.high y.low y.high

/-- The negated words (DI:587-592, 629-633): the complement and one. -/
def negateWords (l h : Word) : Out (Word × Word) := do
  let high ← addO (~~~ h) (addCarry (~~~ l) 1).2
  .ok ((addCarry (~~~ l) 1).1, high)

/-- `negative` (DI:569-598). -/
def negate : Big → Out Big
  | .small x =>
    let r := subFlag 0 (strip x)
    if r.2 then do
      let low1 := ~~~ (untag x)
      let high ← addO (signWord low1) (addCarry low1 1).2
      .ok (.double (addCarry low1 1).1 high)
    else .ok (.small (insert r.1))
  | .double l h => do
    let r ← negateWords l h
    interpret r.1 r.2

/-- `abs` (DI:600-632). -/
def absolute : Big → Out Big
  | .small x =>
    let mx := strip x
    let r := subFlag 0 mx
    if r.2 then do
      let low1 := ~~~ (untag x)
      let high ← addO (signWord low1) (addCarry low1 1).2
      .ok (.double (addCarry low1 1).1 high)
    else .ok (.small (insert (if mx.slt 0 then r.1 else mx)))
  | .double l h =>
    if (Big.double l h).isNegative then do
      let r ← negateWords l h
      interpret r.1 r.2
    else .ok (.double l h)

/-! ### Multiplication -/

/-- The words of the product in the `<double-integer>` body of `*` (DI:215-222). -/
def timesWords (xl xh yl yh : Word) : Word × Word :=
  let p := LLVM.unsignedMultiply xl yl
  (p.1, (addCarry p.2 (addCarry (LLVM.unsignedMultiply xl yh).1 (LLVM.unsignedMultiply xh yl).1).1).1)

/-- `*` (DI:197-231). -/
def times : Big → Big → Out Big
  | .small x, .small y =>
    let r := LLVM.multiplyLowWithOverflow (strip x) (untag y)
    if r.2 then
      let p := LLVM.multiplyLowHigh (untag x) (untag y)
      .ok (.double p.1 p.2)
    else .ok (.small (insert r.1))
  | x, y => do
    let w := timesWords x.low x.high y.low y.high
    let result ← interpret w.1 w.2
    if result.isNegative ≠ (x.isNegative != y.isNegative) then .overflow else .ok result

/-! ### Division -/

/-- The dividend of the second and third step (DI:351-357, 360-365): the remainder of the step before, and the next half
    word. -/
def nextDigit (carry digit : Word) : Out Word := do
  let c ← shlO carry 32
  .ok (c ||| digit)

/-- The quotient put together from those of the three steps (DI:374-389). -/
def assemble (carryHigh sign qh qm ql : Word) : Word × Word :=
  let adjust : Word := if carryHigh == 0 then 0 else sign
  ((qm + adjust) <<< 32 ||| (ql <<< 32) >>> 32, qh + adjust)

/-- The last adjustment (DI:394-418). -/
def adjustResult (dividend : Big) (divisor : Word) (ql qh remainder : Word) : Out (Word × Word × Word) := do
  let r ← coerce remainder
  let doAdjust := !eqI r (tag 0) && (ltI r (tag 0) != dividend.isNegative)
  let lowAdjust : Word := if doAdjust then (if ltI divisor (tag 0) then -1 else 1) else 0
  let h ← addO qh (signWord lowAdjust)
  let h ← addO h (addCarry ql lowAdjust).2
  let r ← Integer.minus r (if doAdjust then divisor else tag 0)
  .ok ((addCarry ql lowAdjust).1, h, r)

/-- `double-integer-by-integer-truncate/` (DI:336-420); the divisor is a tagged word.  The low and high words of the
    quotient, and the remainder, tagged. -/
def divideWords (l h divisor : Word) : Out (Word × Word × Word) := do
  let d := untag divisor
  let sign : Word := if h.slt 0 != ltI divisor (tag 0) then -1 else 0
  let (qh, ch) ← LLVM.doubleDivide h (signWord h) d
  let middle ← nextDigit ch (l >>> 32)
  let (qm, cm) ← LLVM.doubleDivide middle (signWord ch) d
  let low ← nextDigit cm ((l <<< 32) >>> 32)
  let (ql, r) ← LLVM.doubleDivide low (signWord cm) d
  let q := assemble ch sign qh qm ql
  adjustResult (.double l h) divisor q.1 q.2 r

/-- Two results, each an integer. -/
def results (quotient : Out Big) (remainder : Out Big) : Out (Big × Big) := do
  let q ← quotient
  let r ← remainder
  .ok (q, r)

/-- Results of the division of two `dylan/<integer>`s. -/
def smallResults : Out (Word × Word) → Out (Big × Big)
  | .ok (q, r) => .ok (.small q, .small r)
  | .overflow => .overflow | .trap => .trap | .poison => .poison | .error => .error | .diverge => .diverge

/-- `truncate/` (DI:505-526).  The division of two `<double-integer>`s is not implemented: an error. -/
def truncateDiv : Big → Big → Out (Big × Big)
  | .small x, .small y => smallResults (Integer.truncateDiv x y)
  | .small x, .double _ _ => .ok (.small (tag 0), .small x)
  | .double l h, .small y => do
    let (ql, qh, r) ← divideWords l h y
    results (interpret ql qh) (.ok (.small r))
  | .double _ _, .double _ _ => .error

/-- `floor/` (DI:422-457). -/
def floorDiv : Big → Big → Out (Big × Big)
  | .small x, .small y => smallResults (Integer.floorDiv x y)
  | .small x, .double l h =>
    if (Big.small x).isNegative = (Big.double l h).isNegative then .ok (.small (tag 0), .small x)
    else results (.ok (.small (tag (-1)))) (plus (.double l h) (.small x))
  | .double l h, .small y => do
    let (ql, qh, r) ← divideWords l h y
    if !eqI r (tag 0) && (if (Big.small y).isNegative then (Big.double l h).isPositive else (Big.double l h).isNegative) then do
      let h' ← subO qh (subBorrow ql 1).2
      results (interpret (subBorrow ql 1).1 h') (plus (.small r) (.small y))
    else results (interpret ql qh) (.ok (.small r))
  | .double _ _, .double _ _ => .error

/-- `ceiling/` (DI:459-494). -/
def ceilingDiv : Big → Big → Out (Big × Big)
  | .small x, .small y => smallResults (Integer.ceilingDiv x y)
  | .small x, .double l h =>
    if (Big.small x).isNegative = (Big.double l h).isNegative then results (.ok (.small (tag 1))) (minus (.small x) (.double l h))
    else .ok (.small (tag 0), .small x)
  | .double l h, .small y => do
    let (ql, qh, r) ← divideWords l h y
    if !eqI r (tag 0) && (if (Big.small y).isNegative then (Big.double l h).isNegative else (Big.double l h).isPositive) then do
      let h' ← addO qh (addCarry ql 1).2
      results (interpret (addCarry ql 1).1 h') (minus (.small r) (.small y))
    else results (interpret ql qh) (.ok (.small r))
  | .double _ _, .double _ _ => .error

/-! ### Shifts -/

/-- A count as a word. -/
def count (s : Nat) : Word := BitVec.ofNat 64 s

/-- `ash-left` (DI:732-761); the count is at most 128. -/
def ashLeft (xl xh : Word) (shift : Nat) : Out Big :=
  if shift < 64 then do
    let (l, hl) ← LLVM.doubleShiftLeft xl 0 (count shift)
    let hh ← shlO xh shift
    interpret l (hl ||| hh)
  else if xh ≠ signWord xh ∨ xh ≠ signWord xl then .overflow
  else if shift - 64 = 64 then do
    let xl ← shlO xl 32
    let h ← shlO xl 32
    interpret 0 h
  else do
    let h ← shlO xl (shift - 64 : Nat)
    interpret 0 h

/-- `ash-right` (DI:762-790); the count is positive and at most 128. -/
def ashRight (negative : Bool) (xl xh : Word) (shift : Nat) : Out Big :=
  if shift < 64 then do
    let rh ← ashr xh shift
    let lh ← LLVM.rotateRight xh (count shift)
    let ll ← lshr xl shift
    let mask ← LLVM.unsignedShiftLeft (-1) (count (64 - shift))
    interpret (ll ||| (lh &&& mask)) rh
  else if shift - 64 < 64 then do
    let rl ← ashr xh (shift - 64 : Nat)
    interpret rl (signWord xh)
  else .ok (.small (tag (if negative then -1 else 0)))

/-- `ash` (DI:679-704); the count is a tagged word.  `dylan/negative` signals an overflow for the least one. -/
def ash (x : Big) (shift : Word) : Out Big :=
  if ltI shift (tag 0) then do
    let s ← Integer.negative shift
    ashRight x.isNegative x.low x.high (min (raw s) 128).toNat
  else ashLeft x.low x.high (min (raw shift) 128).toNat

/-- `lsh-left` (DI:794-810). -/
def lshLeft (xl xh : Word) (shift : Nat) : Out Big :=
  if shift < 64 then do
    let (l, h) ← LLVM.doubleShiftLeft xl xh (count shift)
    interpret l h
  else if shift - 64 < 64 then do
    let h ← LLVM.unsignedShiftLeft xl (count (shift - 64))
    interpret 0 h
  else .ok (.small (tag 0))

/-- `lsh-right` (DI:811-827). -/
def lshRight (xl xh : Word) (shift : Nat) : Out Big :=
  if shift < 64 then do
    let (l, h) ← LLVM.doubleShiftRight xl xh (count shift)
    interpret l h
  else if shift - 64 < 64 then do
    let l ← lshr xh (shift - 64 : Nat)
    interpret l 0
  else .ok (.small (tag 0))

/-- `lsh` (DI:679-704). -/
def lsh (x : Big) (shift : Word) : Out Big :=
  if ltI shift (tag 0) then do
    let s ← Integer.negative shift
    lshRight x.low x.high (min (raw s) 128).toNat
  else lshLeft x.low x.high (min (raw shift) 128).toNat

/-! ### Logical functions -/

/-- `binary-logior`, `binary-logxor` and `binary-logand` (DI:836-872), with the function on tagged words and that on
    words. -/
def logical (fixed : Word → Word → Word) (f : Word → Word → Word) : Big → Big → Out Big
  | .small x, .small y => .ok (.small (fixed x y))
  | x, y => interpret (f x.low y.low) (f x.high y.high)

def logior := logical Integer.binaryLogior (· ||| ·)
def logxor := logical Integer.binaryLogxor (· ^^^ ·)
def logand := logical Integer.binaryLogand (· &&& ·)

/-- `lognot` (DI:874-882). -/
def lognot : Big → Out Big
  | .small x => .ok (.small (Integer.lognot x))
  | .double l h => interpret (~~~ l) (~~~ h)

/-- `logbit?` (DI:884-902), for a `<double-integer>`. -/
def logbit (bitno : Int) (l h : Word) : Out Bool :=
  if bitno < 0 then .ok false
  else if bitno < 64 then logbitW bitno l
  else if bitno < 128 then logbitW (bitno - 64) h
  else .ok (Big.double l h).isNegative

/-- `llvm.ctlz` (LP:320-323): the number of zeros above the highest one. -/
def countHighZeros (x : Word) : Nat := if x.toNat = 0 then 64 else 63 - Nat.log2 x.toNat

/-- `integer-length` (DI:52-66), for a `<double-integer>`. -/
def integerLength (l h : Word) : Nat :=
  let neg := (Big.double l h).isNegative
  let low := if neg then ~~~ l else l
  let high := if neg then ~~~ h else h
  if high = 0 then 64 - countHighZeros low else 2 * (64 - countHighZeros high)

/-! ### Powers and digits -/

/-- The loop of `^` (DI:649-658).  The power is a number that is not negative, so that `ash(p, -1)` is `p / 2`; `k` limits
    the number of rounds. -/
def powerLoop : Nat → Big → Nat → Big → Out Big
  | 0, _, _, _ => .diverge
  | k + 1, base, p, x =>
    if p = 0 then .ok x
    else do
      let base' ← (if p > 1 then times base base else .ok base : Out Big)
      let x' ← (if p % 2 = 1 then times base x else .ok x : Out Big)
      powerLoop k base' (p / 2) x'

/-- `^` with a base that is not negative (DI:641-642, 646-659). -/
def powerUp (base : Big) (power : Nat) : Out Big :=
  if equal base (.small (tag 2)) then ash (.small (tag 1)) (tag power)
  else do
    let base' ← (if power > 1 then times base base else .ok base : Out Big)
    powerLoop (power + 1) base' (power / 2) (if power % 2 = 1 then base else .small (tag 1))

/-- `^` with a power that is not negative (DI:636-661). -/
def power (base : Big) (power : Nat) : Out Big :=
  if equal base (.small (tag 2)) then ash (.small (tag 1)) (tag power)
  else if base.isNegative then
    if power % 2 = 1 then do
      let b ← negate base
      let r ← powerUp b power
      negate r
    else do
      let b ← negate base
      powerUp b power
  else powerUp base power

/-- `process-integer` of `number-to-string` (DI:981-987): the digits, in order; `k` limits the depth. -/
def processInteger : Nat → Big → Out (List Big)
  | 0, _ => .diverge
  | k + 1, arg => do
    let (q, r) ← truncateDiv arg (.small (tag 10))
    let front ← (if q.isZero then .ok [] else processInteger k q : Out (List Big))
    .ok (front ++ [r])

/-- `number-to-string` of a `<double-integer>` (DI:978-999): whether there is a `-`, and the digits. -/
def numberToString (k : Nat) (l h : Word) : Out (Bool × List Big) :=
  if (Big.double l h).isNegative then do
    let (q, r) ← truncateDiv (.double l h) (.small (tag 10))
    let front ← (if q.isZero then .ok [] else do
      let m ← negate q
      processInteger k m : Out (List Big))
    let last ← negate r
    .ok (true, front ++ [last])
  else do
    let digits ← processInteger k (.double l h)
    .ok (false, digits)

end Verif.BigInt
