import Verif.MwFold.Model

/-!
# Simplification of operations on machine words

Besides folding, the compiler has optimizers for calls of primitives on machine words, which look at constant arguments
and at the calls that made the other arguments.  This file models those of
`sources/dfmc/optimization/calls.dylan` (CA) 511-930.

Simplifications: a call and the calls that made its arguments are written as one term; the code shares the latter with
their other users, and replacing a call by a temporary is here replacing the term by that of the temporary's generator.
`do-primitive-move-log-coercion` (CA:667), which moves a call within its function, is left out, and so is the optimizer
for `primitive-machine-word-divide-signal-overflow` (CA:811-821), since there is no such primitive.
`*optimize-machine-word-primitives?*` is true (CA:515).  Where the code would signal an error, because a constant or an
intermediate result is not an `<integer>`, the model does not rewrite.
-/

namespace Verif.MwPeep

open Verif.MwFold (isInteger literal dand dor dnot)

/-- The primitives with two arguments. -/
inductive Op
  | logand | logior | logxor | add | subtract | multiply | shiftLeft | shiftRight
  deriving DecidableEq, Repr

/-- A value in a function: something else, of which is known whether a computation made it (as opposed to a parameter);
a constant; or a call of a primitive.  `add`, `subtract`, `multiply` and `shiftLeft` are the primitives that signal
overflow; `extract` is `primitive-machine-word-bit-field-extract`. -/
inductive Term
  | other (n : Nat) (made : Bool)
  | const (x : Int)
  | call (op : Op) (a b : Term)
  | extract (offset size x : Term)
  deriving DecidableEq, Repr

/-- `generator(ref)` is not `#f`. -/
def Term.made : Term → Bool
  | .other _ m => m
  | .const _ => false
  | .call _ _ _ => true
  | .extract _ _ _ => true

/-- `fast-constant-value?` and `as(<integer>, ^raw-object-value(v))`, as in CA:522-524. -/
def constant : Term → Option Int
  | .const x => if isInteger x then some x else none
  | _ => none

/-- `ash(1, n)` on `<integer>`s, which signals an error when the result is too large. -/
def ash1 (n : Int) : Option Int := if n < 0 then some 0 else if n < 61 then some (2 ^ n.toNat) else none

/-- `do-optimize-machine-word-binary-noop-1` (CA:517-532). -/
def noop1 (enabled : Bool) (static dynamic : Term) (identity : Int) : Option Term :=
  if enabled && constant static == some identity then some dynamic else none

/-- `do-optimize-machine-word-binary-noop` (CA:534-547). -/
def noop (a b : Term) (identity : Int) (first : Bool := true) (second : Bool := true) : Option Term :=
  (noop1 first a b identity).or (noop1 second b a identity)

/-- A call of `op` with a constant second argument: its arguments. -/
def callTo (op : Op) : Term → Option (Term × Int)
  | .call op' a b => if op' = op then (constant b).map fun y => (a, y) else none
  | _ => none

/-- `do-optimize-machine-word-partial-fold-binary-op` (CA:549-578) with `raw-mw-op` (CA:636-642). -/
def partialFold (op : Op) (combine : Int → Int → Int) (a b : Term) : Option Term :=
  (constant b).bind fun v1 => (callTo op a).map fun (a', v2) => .call op a' (.const (literal (combine v1 v2)))

/-- `do-optimize-machine-word-fold-tag/untag-ops` (CA:598-634) with three primitives, the first of them any: the value of
the innermost call. -/
def foldTag (test : Int → Int → Int → Bool) (op1 op2 : Op) (a b : Term) : Option Term :=
  (constant b).bind fun v0 => (callTo op1 a).bind fun (a1, v1) => (callTo op2 a1).bind fun (a2, v2) =>
    if a2.made && test v0 v1 v2 then some a1 else none

/-- The test in CA:650-654: `shift` bits are free, and both constants are below them. -/
def testShift (xor ior shift : Int) : Bool :=
  match ash1 shift with
  | some max => decide (ior < max ∧ xor < max ∧ ior = xor)
  | none => false

/-- The test in CA:660-663. -/
def testMask (xor ior andy : Int) : Bool := decide (ior = xor ∧ dand andy xor = 0)

/-- The test in CA:786-788. -/
def testThrice (ior1 xor ior2 : Int) : Bool := decide (ior1 = xor ∧ xor = ior2)

/-- `obsolete-loganded-logior?` (CA:746-749). -/
def loganded (x t : Int) : Bool := decide (dand x t = 0)

/-- `obsolete-right-shifted-logior?` (CA:751-754). -/
def shiftedLogior (x t : Int) : Bool :=
  match ash1 t with
  | some m => decide (dand x (dnot (m - 1)) = 0)
  | none => false

/-- `obsolete-right-shifted-logand?` (CA:756-759). -/
def shiftedLogand (x t : Int) : Bool :=
  match ash1 t with
  | some m => decide (dand (dnot x) (m - 1) = 0)
  | none => false

/-- `machine-word-primitive-call-to-and-matching-argument?` (CA:675-690), and the replacement of the argument in
`do-optimize-machine-word-obsoleted-by-right-shift` and `-logand` (CA:718-744), for one primitive and its test. -/
def obsoleted (op inner : Op) (test : Int → Int → Bool) (a b : Term) : Option Term :=
  (constant b).bind fun t => (callTo inner a).bind fun (a', x) => if test x t then some (.call op a' b) else none

/-- `do-optimize-machine-word-shifts` (CA:847-870). -/
def shifts (a b : Term) : Option Term :=
  (callTo .shiftLeft a).bind fun (a', n1) => (constant b).bind fun n0 => if n0 = n1 then some a' else none

/-- The optimizers of the calls with two arguments. -/
def optimizeCall : Op → Term → Term → Option Term
  | .logxor, a, b =>                                                          -- CA:644-668
    ((noop a b 0).or (foldTag testShift .logior .shiftLeft a b)).or (foldTag testMask .logior .logand a b)
  | .logand, a, b => (partialFold .logand dand a b).or (obsoleted .logand .logior loganded a b)    -- CA:761-770
  | .logior, a, b =>                                                          -- CA:777-792
    ((noop a b 0).or (partialFold .logior dor a b)).or (foldTag testThrice .logxor .logior a b)
  | .multiply, a, b => noop a b 1                                             -- CA:799-803
  | .add, a, b => noop a b 0                                                  -- CA:823-827
  | .subtract, a, b => noop a b 0                                             -- CA:835-839
  | .shiftRight, a, b =>                                                      -- CA:872-883
    (((noop a b 0 (first := false)).or (obsoleted .shiftRight .logior shiftedLogior a b)).or
      (obsoleted .shiftRight .logand shiftedLogand a b)).or (shifts a b)
  | .shiftLeft, a, b => noop a b 0 (first := false)                           -- CA:890-894

/-- `do-optimize-primitive-machine-word-bit-field-extract` (CA:902-925). -/
def optimizeExtract (offset size x : Term) : Option Term :=
  if constant offset = some 0 then
    (constant size).bind fun n => (ash1 n).map fun m => .call .logand x (.const (literal (m - 1)))
  else none

/-- What a call is replaced by, if anything. -/
def optimize : Term → Option Term
  | .call op a b => optimizeCall op a b
  | .extract o s x => optimizeExtract o s x
  | _ => none

end Verif.MwPeep
