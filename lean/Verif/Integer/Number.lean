import Verif.Integer.Model
import Verif.Integer.Spec
/-
Model of the `<integer>` functions that are written in terms of other
`<integer>` functions: `\^`, `gcd`, `lcm`, `power-of-two-ceiling`
(sources/dylan/integer.dylan).

Here an `<integer>` is its value, and the basic operations are the checked
operations below.  `Props.lean` proves that the tagged-word methods of
`Model.lean` compute exactly these on representable arguments
(`arithmetic_exact`, `ash_exact`, `division_exact…`), so this layer simplifies
the representation only.
-/
namespace Verif.Integer

/-- A result checked for representability. -/
def checked (n : Int) : Out Int := if InRange n then .ok n else .overflow

/-- `\+` (integer.dylan 136-142). -/
def addI (a b : Int) : Out Int := checked (a + b)
/-- `\-` (integer.dylan 144-150). -/
def subI (a b : Int) : Out Int := checked (a - b)
/-- `\*` (integer.dylan 152-158). -/
def mulI (a b : Int) : Out Int := checked (a * b)
/-- `negative` (integer.dylan 210-221). -/
def negI (a : Int) : Out Int := checked (-a)
/-- `abs` (integer.dylan 210-222). -/
def absI (a : Int) : Out Int := checked |a|
/-- `ash` with a nonnegative count (integer.dylan 344-359). -/
def ashLeftI (a : Int) (s : Nat) : Out Int := checked (a * 2 ^ s)
/-- `truncate/`, quotient only (integer.dylan 192). -/
def truncI (a b : Int) : Out Int := if b = 0 then .trap else checked (a.tdiv b)

/-- The `iterate loop` of `\^` (integer.dylan 235-245). `p` is nonnegative, so
`ash(p, -1)` is `p / 2`. -/
def powerLoop (base : Int) (p : Nat) (x : Int) : Out Int :=
  if _h : p = 0 then .ok x
  else do
    let base' ← (if p > 1 then mulI base base else .ok base : Out Int)
    let x' ← (if p % 2 = 1 then mulI base x else .ok x : Out Int)
    powerLoop base' (p / 2) x'
termination_by p
decreasing_by omega

/-- `\^` on a nonnegative base and power (integer.dylan 229-230, 233-245). -/
def powerNonneg (base : Int) (power : Nat) : Out Int :=
  if base = 2 then ashLeftI 1 power
  else do
    let base' ← (if power > 1 then mulI base base else .ok base : Out Int)
    powerLoop base' (power / 2) (if power % 2 = 1 then base else 1)

/-- `\^` (integer.dylan 224-247). -/
def power (base pow : Int) : Out Int :=
  if pow < 0 then .error
  else if base = 2 then ashLeftI 1 pow.toNat
  else if base < 0 then do
    let nb ← negI base
    let r ← powerNonneg nb pow.toNat
    if pow % 2 = 1 then negI r else .ok r
  else powerNonneg base pow.toNat

/-- The outer `for` of `gcd` (integer.dylan 413-416): halve `u` and `v` until
one of them is odd, counting in `k`.  With both zero the source never stops. -/
def gcdHalve (k : Nat) (u v : Int) : Out (Nat × Int × Int) :=
  if _h : u % 2 = 1 ∨ v % 2 = 1 then .ok (k, u, v)
  else if _h : u = 0 ∧ v = 0 then .diverge
  else gcdHalve (k + 1) (u / 2) (v / 2)
termination_by u.natAbs + v.natAbs
decreasing_by omega

/-- The inner `for` of `gcd` (integer.dylan 419-437), at most `fuel` rounds. -/
def gcdLoop (k : Nat) : Nat → Int → Int → Int → Out Int
  | 0, _, _, _ => .diverge
  | fuel + 1, tmp, u, v =>
    if tmp % 2 = 1 then do
      let (u, v) ← (if 0 < tmp then .ok (tmp, v) else do
        let nv ← negI tmp
        .ok (u, nv) : Out (Int × Int))
      let tmp ← subI u v
      if tmp = 0 then ashLeftI u k
      else gcdLoop k fuel (tmp / 2) u v
    else gcdLoop k fuel (tmp / 2) u v

/-- `gcd` (integer.dylan 403-441), the inner loop limited to `fuel` rounds. -/
def gcd (fuel : Nat) (n m : Int) : Out Int :=
  if n = 0 then .ok m
  else if m = 0 then .ok n
  else if n = m then .ok n
  else do
    let u ← absI n
    let v ← absI m
    let (k, u, v) ← gcdHalve 0 u v
    let tmp ← (if u % 2 = 1 then negI v else .ok (u / 2) : Out Int)
    gcdLoop k fuel tmp u v

/-- `lcm` (integer.dylan 397-399). -/
def lcm (fuel : Nat) (n m : Int) : Out Int := do
  let g ← gcd fuel n m
  let q ← truncI (max n m) g
  mulI q (min n m)

/-- `power-of-two-ceiling` (integer.dylan 446-454), the search limited to
`fuel` rounds. -/
def powerOfTwoCeiling (value : Int) : Nat → Int → Out Int
  | 0, _ => .diverge
  | fuel + 1, p =>
    if p ≥ value then .ok p
    else do
      let p' ← addI p p
      powerOfTwoCeiling value fuel p'

end Verif.Integer
