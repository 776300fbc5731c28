import Mathlib.Data.Int.GCD
/-
Model of integer ranges, `sources/dylan/range.dylan`.  Elements, steps and sizes are integers of
arbitrary size: an intermediate result outside the range of `<integer>`, for which the code signals an
overflow error, is not modelled, and neither are ranges of other numbers.  A range object is its class
and slots; operations that modify a range return the modified range.
-/
namespace Verif.Range

/-- The concrete classes with their slots (range.dylan 24-43): `<empty-range>`, `<constant-range>`,
`<finite-range>` and `<infinite-range>`. -/
inductive Rng
  | empty
  | constant (start : Int) (size : Option Int)
  | finite (start step size : Int)
  | infinite (start step : Int)
  deriving DecidableEq, Repr

/-- The errors signalled: `element-range-error`, `<range-size-mismatch-error>`,
`<infinite-range-error>`, `<incompatible-range-error>` and `<type-error>`. -/
inductive Err
  | range | mismatch | infinite | incompatible | type
  deriving DecidableEq, Repr

/-- The outcome of a call. -/
inductive Out (α : Type)
  | ok (a : α)
  | err (e : Err)
  deriving DecidableEq, Repr

/-- The keyword arguments of `make(<range>)` (range.dylan 66-67); `upTo` is to:. -/
structure Args where
  start : Int := 0
  step : Int := 1
  upTo : Option Int := none
  below : Option Int := none
  above : Option Int := none
  size : Option Int := none

/-- `floor/`, the quotient.  Exactness of the integer operation: `Verif.Integer.floor_exact`. -/
def floorDiv (a b : Int) : Int := Int.fdiv a b

/-- `truncate/`, quotient and remainder (`Verif.Integer.truncate_exact`). -/
def truncDiv (a b : Int) : Int × Int := (a.tdiv b, a.tmod b)

/-- Converting above: or below: to to: (range.dylan 77-85). -/
def bound (a : Args) : Option Int :=
  if a.step > 0 then
    match a.below with
    | none => a.upTo
    | some b =>
      match a.upTo with
      | none => some (b - a.step)
      | some t => if t < b - a.step then some (b - a.step) else some t
  else
    match a.above with
    | none => a.upTo
    | some b =>
      match a.upTo with
      | none => some (b - a.step)
      | some t => if t > b - a.step then some (b - a.step) else some t

/-- The end of `make` (range.dylan 109-113). -/
def finish (start step size : Int) : Rng := if size = 0 then .empty else .finite start step size

/-- `make(<range>)` (range.dylan 65-116). -/
def make (a : Args) : Out Rng :=
  if a.step = 0 then
    if (match a.above with | none => true | some v => decide (a.start > v)) &&
       (match a.below with | none => true | some v => decide (a.start < v)) then
      .ok (.constant a.start a.size)
    else .ok .empty
  else
    match bound a, a.size with
    | none, none => .ok (.infinite a.start a.step)
    | some t, some s =>
      if s ≠ floorDiv (t + a.step - a.start) a.step then .err .mismatch
      else .ok (finish a.start a.step s)
    | none, some s => .ok (finish a.start a.step s)
    | some t, none => .ok (finish a.start a.step (floorDiv (t + a.step - a.start) a.step))

/-- `size` (range.dylan 152-160 and the slots); `none` is #f. -/
def size : Rng → Option Int
  | .empty => some 0
  | .constant _ s => s
  | .finite _ _ s => some s
  | .infinite _ _ => none

/-- `empty?` (range.dylan 141-149). -/
def isEmpty : Rng → Bool
  | .empty => true
  | _ => false

/-- `range-by` (range.dylan 26, 53-54, 73). -/
def step : Rng → Int
  | .empty => 0
  | .constant _ _ => 0
  | .finite _ b _ => b
  | .infinite _ b => b

/-- The result for a key that is not in the collection: the default or an error. -/
def missing (default : Option Int) : Out Int :=
  match default with
  | none => .err .range
  | some d => .ok d

/-- `element` (range.dylan 163-205). -/
def element (r : Rng) (key : Int) (default : Option Int := none) : Out Int :=
  match r with
  | .empty => missing default
  | .constant f s =>
    match s with
    | none => .ok f
    | some n => if key < n then .ok f else missing default
  | .infinite f b => .ok (f + key * b)
  | .finite f b n => if key ≥ 0 ∧ key < n then .ok (f + key * b) else missing default

/-- `last` (range.dylan 208-222); on the empty range the inherited method (sequence.dylan 605-619)
returns the default or signals an error. -/
def last (r : Rng) (default : Option Int := none) : Out Int :=
  match r with
  | .empty => missing default
  | .constant f _ => .ok f
  | .infinite _ _ => .err .infinite
  | .finite f b n => .ok (f + b * (n - 1))

/-- `find-key-for-element` (range.dylan 225-257). -/
def findKey (value : Int) : Rng → Option Int
  | .empty => none
  | .constant f _ => if value = f then some 0 else none
  | .infinite f b =>
    let (key, rem) := truncDiv (value - f) b
    if rem = 0 ∧ 0 ≤ key then some key else none
  | .finite f b n =>
    let (key, rem) := truncDiv (value - f) b
    if rem = 0 ∧ 0 ≤ key ∧ key < n then some key else none

/-- `member?` with the default test (range.dylan 296-304). -/
def member (value : Int) (r : Rng) : Bool := (findKey value r).isSome

/-- `=` (range.dylan 266-293). -/
def equal : Rng → Rng → Bool
  | .empty, .empty => true
  | .constant f1 s1, .constant f2 s2 => decide (f1 = f2) && decide (s1 = s2)
  | .infinite f1 b1, .infinite f2 b2 => decide (f1 = f2) && decide (b1 = b2)
  | .finite f1 b1 n1, .finite f2 b2 n2 => decide (f1 = f2) && decide (b1 = b2) && decide (n1 = n2)
  | _, _ => false

/-- The loop of a `for` over an iteration protocol, stopped after `fuel` rounds: the elements seen, and
whether the iteration finished by itself. -/
def iterate {S : Type} (finished : S → Bool) (current : S → Int) (next : S → S) : Nat → S → List Int × Bool
  | 0, _ => ([], false)
  | fuel + 1, s =>
    if finished s then ([], true)
    else
      let (l, done) := iterate finished current next fuel (next s)
      (current s :: l, done)

/-- Forward iteration (range.dylan 749-763, 774-788, 800-818, 840-858), at most `fuel` rounds. -/
def forward (fuel : Nat) : Rng → List Int × Bool
  | .empty => iterate (fun _ : Int => true) id id fuel 0
  | .infinite f b => iterate (fun _ => false) id (· + b) fuel f
  | .finite f b n =>
    let limit := f + b * (n - 1)
    iterate (fun s => if b > 0 then decide (s > limit) else decide (s < limit)) id (· + b) fuel f
  | .constant f s =>
    iterate (fun i => match s with | none => false | some n => decide (i = n)) (fun _ => f) (· + 1) fuel 0

/-- Backward iteration (range.dylan 765-772, 790-798, 820-838, 860-878), at most `fuel` rounds. -/
def backward (fuel : Nat) : Rng → Out (List Int × Bool)
  | .empty => .ok (iterate (fun _ : Int => true) id id fuel 0)
  | .infinite _ _ => .err .infinite
  | .finite f b n =>
    .ok (iterate (fun s => if b > 0 then decide (s < f) else decide (s > f)) id (· - b) fuel (f + b * (n - 1)))
  | .constant f s =>
    match s with
    | none => .err .infinite
    | some n => .ok (iterate (fun i => decide (i = -1)) (fun _ => f) (· - 1) fuel (n - 1))

/-- The current key of a state in an iteration over a finite or infinite range (range.dylan 720-723). -/
def currentKey (f b state : Int) : Int := floorDiv (state - f) b

/-- The result of an operation that returns a range or a fresh list. -/
inductive Res
  | rng (r : Rng)
  | list (l : List Int)
  deriving DecidableEq, Repr

/-- `shallow-copy` (range.dylan 131-138): push the elements met by a backward iteration; `none` if `fuel`
rounds do not suffice. -/
def shallowCopy (fuel : Nat) (r : Rng) : Out (Option (List Int)) :=
  match backward fuel r with
  | .err e => .err e
  | .ok (_, false) => .ok none
  | .ok (l, true) => .ok (some (l.foldl (fun acc e => e :: acc) []))

/-- `add!(shallow-copy(range), elt)` on a list (list.dylan 389-391). -/
def addToCopy (fuel : Nat) (r : Rng) (elt : Int) : Out (Option Res) :=
  match shallowCopy fuel r with
  | .err e => .err e
  | .ok none => .ok none
  | .ok (some l) => .ok (some (.list (elt :: l)))

/-- `add!` of an integer (range.dylan 319-373). -/
def add (fuel : Nat) (r : Rng) (elt : Int) : Out (Option Res) :=
  match r with
  | .empty => .ok (some (.rng (finish elt 1 1)))
  | .infinite f b =>
    if elt = f - b then .ok (some (.rng (.infinite (f - b) b))) else .err .incompatible
  | .constant f s =>
    if elt = f then .ok (some (.rng (.constant f (s.map (· + 1)))))
    else if s = some 1 then .ok (some (.rng (finish f (elt - f) 2)))
    else addToCopy fuel r elt
  | .finite f b n =>
    if elt = (f + b * (n - 1)) + b then .ok (some (.rng (.finite f b (n + 1))))
    else if elt = f - b then .ok (some (.rng (.finite (f - b) b (n + 1))))
    else if n = 1 then
      if elt = f then .ok (some (.rng (.constant elt (some 2))))
      else .ok (some (.rng (.finite f (elt - f) (n + 1))))
    else addToCopy fuel r elt

/-- `remove!` on a list (list.dylan 513-545) with a test and a positive count. -/
def listRemove (test : Int → Int → Bool) (value : Int) : Nat → List Int → List Int
  | 0, l => l
  | _ + 1, [] => []
  | c + 1, x :: l => if test x value then listRemove test value c l else x :: listRemove test value (c + 1) l

/-- `remove!(shallow-copy(range), elt, test: test, count: count)` with a positive count.  Without a
`test:` argument `test` is #f, which the keyword argument `test :: <function>` of the list method
(list.dylan 514) rejects. -/
def removeFromCopy (fuel : Nat) (r : Rng) (elt : Int) (test : Option (Int → Int → Bool)) (count : Nat) :
    Out (Option Res) :=
  match shallowCopy fuel r with
  | .err e => .err e
  | .ok none => .ok none
  | .ok (some l) =>
    match test with
    | none => .err .type
    | some t => .ok (some (.list (listRemove t elt count l)))

/-- `remove!` of an integer (range.dylan 386-454); `count` is a natural number if given.  In the branch of
lines 418-423 `elt` is not the element of the constant range, so `member?` is false there. -/
def remove (fuel : Nat) (r : Rng) (elt : Int) (test : Option (Int → Int → Bool)) (count : Option Nat) :
    Out (Option Res) :=
  match r with
  | .empty => .ok (some (.rng .empty))
  | .infinite f b =>
    if elt = f then
      if count = some 0 then .ok (some (.rng r)) else .ok (some (.rng (.infinite (f + b) b)))
    else .err .incompatible
  | .constant f s =>
    if count = some 0 then .ok (some (.rng r))
    else if elt = f then .ok (some (.rng (.constant f (s.map (· - 1)))))
    else if s = some 1 then .ok (some (.rng .empty))
    else .ok (some (.rng r))
  | .finite f b n =>
    if count = some 0 then .ok (some (.rng r))
    else if n = 1 ∧ elt = f then .ok (some (.rng .empty))
    else if elt = f + b * (n - 1) then .ok (some (.rng (.finite f b (n - 1))))
    else if elt = f then .ok (some (.rng (.finite (f + b) b (n - 1))))
    else
      match count with
      | some c => if member elt r then removeFromCopy fuel r elt test c else .ok (some (.rng r))
      | none => .ok (some (.rng r))

/-- `copy-sequence` (range.dylan 457-476); `stop = none` is an absent end:. -/
def copySequence (r : Rng) (start : Int := 0) (stop : Option Int := none) : Out Rng :=
  match r with
  | .empty => .ok .empty
  | _ =>
    match element r start with
    | .err e => .err e
    | .ok from' =>
      match (match stop with | some e => some e | none => size r) with
      | some endp =>
        let newEnd := match size r with
          | some n => if endp > n then n else endp
          | none => endp
        make { start := from', step := step r, size := some (newEnd - start) }
      | none => make { start := from', step := step r }

/-- `reverse!` (range.dylan 658-683). -/
def reverse! : Rng → Out Rng
  | .empty => .ok .empty
  | .infinite _ _ => .err .infinite
  | .constant f s => match s with | none => .err .infinite | some n => .ok (.constant f (some n))
  | .finite f b n => .ok (.finite (f + b * (n - 1)) (-b) n)

/-- `reverse` (range.dylan 653-656). -/
def reverse (r : Rng) : Out Rng :=
  match copySequence r with
  | .err e => .err e
  | .ok r => reverse! r

/-- `gcd` as computed by integer.dylan 403-441 (`Verif.Integer.gcd`, exactness `Verif.Integer.gcd_partial`):
an argument is returned unchanged when the other is 0 or equal to it. -/
def gcdI (n m : Int) : Int :=
  if n = 0 then m else if m = 0 then n else if n = m then n else (Int.gcd n m : Int)

/-- `lcm` (integer.dylan 397-399). -/
def lcmI (n m : Int) : Int := (truncDiv (max n m) (gcdI n m)).1 * min n m

/-- The `for` of `first-intersection` (range.dylan 548-555): at most `rounds` candidates. -/
def search (by1 from2 by2 : Int) : Nat → Int → Option Int
  | 0, _ => none
  | rounds + 1, n => if (n - from2).tmod by2 = 0 then some n else search by1 from2 by2 rounds (n + by1)

/-- `first-intersection` after the possible negation and exchange (range.dylan 546-555). -/
def firstOrdered (from1 by1 from2 by2 : Int) : Option Int := search by1 from2 by2 by2.toNat from1

/-- `first-intersection` for a positive first step (range.dylan 543-556): the recursive call of line 544
has its arguments in order, and it negates them again if `by2` is negative, which no caller lets happen. -/
def firstPositive (from1 by1 from2 by2 : Int) : Option Int :=
  if from1 < from2 then firstOrdered from2 by2 from1 by1 else firstOrdered from1 by1 from2 by2

/-- `first-intersection` (range.dylan 533-557); both steps have the same sign at all calls. -/
def firstIntersection (from1 by1 from2 by2 : Int) : Option Int :=
  if by1 < 0 then (firstPositive (-from1) (-by1) (-from2) (-by2)).map (- ·)
  else firstPositive from1 by1 from2 by2

/-- `ordered-finite-intersection` (range.dylan 559-577). -/
def orderedIntersection (lo1 by1 hi1 lo2 by2 hi2 : Int) : Out Rng :=
  if hi1 < lo2 ∨ hi2 < lo1 then .ok .empty
  else
    match firstIntersection lo1 by1 lo2 by2 with
    | none => .ok .empty
    | some f =>
      if f ≥ lo1 ∧ f ≥ lo2 then
        match firstIntersection hi1 (-by1) hi2 (-by2) with
        | none => .ok .empty
        | some t =>
          if t ≤ hi1 ∧ t ≤ hi2 then make { start := f, upTo := some t, step := lcmI by1 by2 }
          else .ok .empty
      else .ok .empty

/-- `finite-intersection` (range.dylan 579-594). -/
def finiteIntersection (from1 by1 to1 from2 by2 to2 : Int) : Out Rng :=
  if by1 < 0 then
    if by2 < 0 then orderedIntersection to1 (-by1) from1 to2 (-by2) from2
    else orderedIntersection to1 (-by1) from1 from2 by2 to2
  else
    if by2 < 0 then orderedIntersection from1 by1 to1 to2 (-by2) from2
    else orderedIntersection from1 by1 to1 from2 by2 to2

/-- `same-sign?` (range.dylan 528-531). -/
def sameSign (x y : Int) : Bool := if x > 0 then decide (y > 0) else decide (y < 0)

/-- `last-of-in` (range.dylan 596-607): the infinite range `from by`, and the start, step and last
element of the other range (no last element is needed for an infinite range of the other direction). -/
def lastOfIn (ofFrom ofBy inFrom inBy inLast : Int) : Int :=
  let bound := if sameSign inBy ofBy then inLast else inFrom
  (truncDiv (bound - ofFrom) ofBy).1 * ofBy + ofFrom

/-- `id?-intersection-with-constant` (range.dylan 503-510). -/
def constantIntersection (value : Int) (r : Rng) : Out Rng :=
  if member value r then make { start := value, size := some 1 } else .ok .empty

/-- `intersection` with the default test (range.dylan 479-526, 609-651). -/
def intersection (r1 r2 : Rng) : Out Rng :=
  match r1, r2 with
  | .empty, _ => .ok .empty
  | _, .empty => .ok .empty
  | .constant f1 s1, .constant f2 s2 =>
    if f1 = f2 then
      if (match s1, s2 with
          | some n1, some n2 => decide (n1 < n2)
          | some _, none => true
          | none, _ => false) then .ok r1 else .ok r2
    else .ok .empty
  | .constant f1 _, _ => constantIntersection f1 r2
  | _, .constant f2 _ => constantIntersection f2 r1
  | .finite f1 b1 n1, .finite f2 b2 n2 =>
    finiteIntersection f1 b1 (f1 + b1 * (n1 - 1)) f2 b2 (f2 + b2 * (n2 - 1))
  | .finite f1 b1 n1, .infinite f2 b2 =>
    finiteIntersection f1 b1 (f1 + b1 * (n1 - 1)) f2 b2 (lastOfIn f2 b2 f1 b1 (f1 + b1 * (n1 - 1)))
  | .infinite f1 b1, .finite f2 b2 n2 =>
    finiteIntersection f1 b1 (lastOfIn f1 b1 f2 b2 (f2 + b2 * (n2 - 1))) f2 b2 (f2 + b2 * (n2 - 1))
  | .infinite f1 b1, .infinite f2 b2 =>
    if sameSign b1 b2 then
      match firstIntersection f1 b1 f2 b2 with
      | some f => make { start := f, step := lcmI b1 b2 }
      | none => .ok .empty
    else finiteIntersection f1 b1 (lastOfIn f1 b1 f2 b2 0) f2 b2 (lastOfIn f2 b2 f1 b1 0)

end Verif.Range
