/-!
# Model of `sources/dylan/deque.dylan`: `<object-deque>` over `<island-deque>`

The representation is a backing store of slots and two integer indices; the elements live in the
slots `first-index .. last-index`, an "island" in the store.  Integers are unbounded here.  A slot
access outside the store is the distinct outcome `oob`; loops without an evident bound take fuel and
give the distinct outcome `diverge` when it runs out.

The value `no` stands for the Dylan object `#f`, with which the code fills unused slots.

Not modelled: the `check-type` calls for limited deques (the element type is `<object>` here),
concurrent access, integer overflow of indices.
-/
namespace Verif.Deque

/-- Outcome of a computation. -/
inductive Res (β : Type) where
  | ok (b : β)
  /-- a slot access outside the backing store -/
  | oob
  /-- did not finish within the fuel -/
  | diverge
  deriving DecidableEq, Repr

namespace Res
def bind {β γ : Type} : Res β → (β → Res γ) → Res γ
  | .ok b, f => f b
  | .oob, _ => .oob
  | .diverge, _ => .diverge

instance : Monad Res where
  pure := .ok
  bind := Res.bind
end Res

/-- What an operation gives back to its caller. -/
inductive Out (α : Type) where
  | val (x : α)
  | num (n : Int)
  | bool (b : Bool)
  | unit
  /-- `<empty-collection-error>` signalled -/
  | emptyError
  /-- `element-range-error` signalled -/
  | rangeError
  /-- `<natural-number-error>` signalled by `check-nat` -/
  | natError
  deriving DecidableEq, Repr

variable {α : Type}

/-- deque.dylan lines 151-160: `<island-deque>`.  The deque object itself (line 59) only holds a
reference to it. -/
structure Rep (α : Type) where
  data : List α
  first : Int
  last : Int
  deriving DecidableEq, Repr

/-- Reading `island-deque-element(rep, i)`. -/
def rd (d : List α) (i : Int) : Res α :=
  if 0 ≤ i then
    match d[i.toNat]? with
    | some x => .ok x
    | none => .oob
  else .oob

/-- `island-deque-element(rep, i) := x`. -/
def wr (d : List α) (i : Int) (x : α) : Res (List α) :=
  if 0 ≤ i ∧ i < d.length then .ok (d.set i.toNat x) else .oob

/-- A loop `for (i from i ...) element(i) := x` of `n` rounds. -/
def fillLoop (x : α) : Nat → List α → Int → Res (List α)
  | 0, d, _ => .ok d
  | n + 1, d, i => do
    let d ← wr d i x
    fillLoop x n d (i + 1)

/-- deque.dylan lines 166-181: `initialize` (`fill = none` is `fill: #f`). -/
def make (no : α) (size : Nat) (fill : Option α) : Res (Rep α) := do
  let dataSize := max (size * 2) 4
  let d := List.replicate dataSize no
  let first : Int := dataSize / 2
  let last : Int := first + size - 1
  let d ← match fill with
    | some x => fillLoop x (last - first + 1).toNat d first
    | none => .ok d
  .ok ⟨d, first, last⟩

/-- deque.dylan lines 217-220: `size`. -/
def size (r : Rep α) : Int := (r.last - r.first) + 1

/-- deque.dylan lines 262-265: `empty?`. -/
def isEmpty (r : Rep α) : Bool := r.last < r.first

/-- deque.dylan lines 272-292: `element`. -/
def element (r : Rep α) (index : Int) (default : Option α) : Res (Out α) :=
  if index < 0 ∨ index > r.last - r.first then
    match default with
    | none => .ok .rangeError
    | some x => .ok (.val x)
  else do
    let x ← rd r.data (index + r.first)
    .ok (.val x)

/-- deque.dylan lines 412-418: the copying loop of `grow!`, `n` rounds from slot `src` of the old
store to slot `dst` of the new one; returns the new store and the final `dst-index`. -/
def growLoop (old : List α) : Nat → List α → Int → Int → Res (List α × Int)
  | 0, new, _, dst => .ok (new, dst)
  | n + 1, new, src, dst => do
    let x ← rd old src
    let new ← wr new dst x
    growLoop old n new (src + 1) (dst + 1)

/-- deque.dylan lines 406-423: `grow!`. -/
def grow (no : α) (r : Rep α) : Res (Rep α) := do
  let oldSize := (r.last - r.first) + 1
  let first := oldSize.tdiv 2
  let (d, dst) ← growLoop r.data oldSize.toNat (List.replicate (oldSize * 2).toNat no) r.first first
  .ok ⟨d, first, dst - 1⟩

/-- deque.dylan lines 440-444: the downward copying loop of `make-room-at-first!`. -/
def copyDown : Nat → List α → Int → Int → Res (List α)
  | 0, d, _, _ => .ok d
  | n + 1, d, dst, src => do
    let x ← rd d src
    let d ← wr d dst x
    copyDown n d (dst - 1) (src - 1)

/-- deque.dylan lines 463-466: the upward copying loop of `make-room-at-last!`. -/
def copyUp : Nat → List α → Int → Int → Res (List α)
  | 0, d, _, _ => .ok d
  | n + 1, d, dst, src => do
    let x ← rd d src
    let d ← wr d dst x
    copyUp n d (dst + 1) (src + 1)

/-- deque.dylan lines 426-449: `make-room-at-first!`. -/
def makeRoomAtFirst (no : α) (r : Rep α) : Res (Rep α) := do
  let r ← (if (r.data.length : Int) = size r then grow no r else .ok r : Res (Rep α))
  let top : Int := r.data.length - 1
  let delta : Int := top - (r.last - r.first)
  if r.last = top ∨ delta < 0 then .ok r
  else do
    let d ← copyDown (top - delta + 1).toNat r.data top ((top - delta) + r.first)
    .ok ⟨d, delta, top⟩

/-- deque.dylan lines 452-471: `make-room-at-last!`. -/
def makeRoomAtLast (no : α) (r : Rep α) : Res (Rep α) := do
  let r ← (if (r.data.length : Int) = size r then grow no r else .ok r : Res (Rep α))
  let newLast : Int := r.last - r.first
  if r.first = 0 ∨ newLast < -1 then .ok r
  else do
    let d ← copyUp (newLast + 1).toNat r.data 0 r.first
    .ok ⟨d, 0, newLast⟩

/-- deque.dylan lines 478-491: `push`; the `while` loop is the recursion. -/
def push (no : α) : Nat → Rep α → α → Res (Rep α)
  | 0, _, _ => .diverge
  | fuel + 1, r, x =>
    if r.first = 0 then do
      let r ← makeRoomAtFirst no r
      push no fuel r x
    else do
      let d ← wr r.data (r.first - 1) x
      .ok ⟨d, r.first - 1, r.last⟩

/-- deque.dylan lines 519-533: `trusted-push-last`; the `while` loop is the recursion. -/
def pushLast (no : α) : Nat → Rep α → α → Res (Rep α)
  | 0, _, _ => .diverge
  | fuel + 1, r, x =>
    if r.last = (r.data.length : Int) - 1 then do
      let r ← makeRoomAtLast no r
      pushLast no fuel r x
    else do
      let d ← wr r.data (r.last + 1) x
      .ok ⟨d, r.first, r.last + 1⟩

/-- deque.dylan lines 498-512: `pop`. -/
def pop (no : α) (r : Rep α) : Res (Out α × Rep α) :=
  if r.last < r.first then .ok (.emptyError, r)
  else do
    let x ← rd r.data r.first
    let d ← wr r.data r.first no
    .ok (.val x, ⟨d, r.first + 1, r.last⟩)

/-- deque.dylan lines 546-560: `pop-last`. -/
def popLast (no : α) (r : Rep α) : Res (Out α × Rep α) :=
  if r.last < r.first then .ok (.emptyError, r)
  else do
    let x ← rd r.data r.last
    let d ← wr r.data r.last no
    .ok (.val x, ⟨d, r.first, r.last - 1⟩)

/-- The fuel given to the `while` loops of `push` and `push-last`: one round and the final test
("If threads are used properly this loop should be executed at most once"). -/
def loopFuel : Nat := 2

/-- deque.dylan lines 233-236: `n` times `pop-last`; an error stops the loop. -/
def popLoop (no : α) : Nat → Rep α → Res (Out α × Rep α)
  | 0, r => .ok (.unit, r)
  | n + 1, r => do
    let (o, r) ← popLast no r
    match o with
    | .emptyError => .ok (.emptyError, r)
    | _ => popLoop no n r

/-- deque.dylan lines 237-240: `n` times `trusted-push-last(collection, #f)`. -/
def padLoop (no : α) : Nat → Rep α → Res (Rep α)
  | 0, r => .ok r
  | n + 1, r => do
    let r ← pushLast no loopFuel r no
    padLoop no n r

/-- deque.dylan lines 227-243: `trusted-size-setter`. -/
def trustedSetSize (no : α) (newSize : Int) (r : Rep α) : Res (Out α × Rep α) :=
  let difference := newSize - size r
  if difference < 0 then popLoop no (-difference).toNat r
  else if difference > 0 then do
    let r ← padLoop no difference.toNat r
    .ok (.unit, r)
  else .ok (.unit, r)

/-- deque.dylan lines 245-255: `size-setter`. -/
def setSize (no : α) (newSize : Int) (r : Rep α) : Res (Out α × Rep α) :=
  if newSize < 0 then .ok (.natError, r)
  else trustedSetSize no newSize r

/-- deque.dylan lines 313-335: `element-setter`; "Let's try again" is the recursion. -/
def setElement (no : α) : Nat → Rep α → α → Int → Res (Out α × Rep α)
  | 0, _, _, _ => .diverge
  | fuel + 1, r, x, index =>
    if index < 0 then .ok (.rangeError, r)
    else if index > r.last - r.first then do
      let (o, r) ← (if size r = index then trustedSetSize no (index + 1) r
        else setSize no (index + 1) r : Res (Out α × Rep α))
      match o with
      | .unit => setElement no fuel r x index
      | o => .ok (o, r)
    else do
      let d ← wr r.data (index + r.first) x
      .ok (.unit, ⟨d, r.first, r.last⟩)

/-- deque.dylan lines 362-380: the loop `grovel` of `remove!`; `n` counts the slots
`src-index .. rep-last-index` still to visit (the test `src-index > rep-last-index`).  `p item` is
`test(item, target)`.  The result is the store and `dst-index`. -/
def grovel (no : α) (p : α → Bool) : Nat → List α → Int → Int → Int → Res (List α × Int)
  | 0, d, _, src, dst => do
    let d ← fillLoop no (src - dst).toNat d dst
    .ok (d, dst)
  | n + 1, d, count, src, dst => do
    let item ← rd d src
    if 0 < count ∧ p item then grovel no p n d (count - 1) (src + 1) dst
    else do
      let d ← wr d dst item
      grovel no p n d count (src + 1) (dst + 1)

/-- deque.dylan lines 356-382: `remove!`. -/
def remove (no : α) (p : α → Bool) (count : Option Int) (r : Rep α) : Res (Rep α) := do
  let count := count.getD (size r)
  let (d, dst) ← grovel no p (r.last - r.first + 1).toNat r.data count r.first r.first
  .ok ⟨d, r.first, dst - 1⟩

/-- deque.dylan lines 394-399: the swapping loop of `reverse!`. -/
def reverseLoop : Nat → List α → Int → Int → Res (List α)
  | 0, d, _, _ => .ok d
  | n + 1, d, i, j => do
    let tmp ← rd d i
    let y ← rd d j
    let d ← wr d i y
    let d ← wr d j tmp
    reverseLoop n d (i + 1) (j - 1)

/-- deque.dylan lines 389-401: `reverse!`; `ceiling/(x, 2)` is `-((-x) / 2)` with the flooring
division of `Int`. -/
def reverse (r : Rep α) : Res (Rep α) := do
  let stopping : Int := -((-(r.first + r.last)) / 2)
  let d ← reverseLoop (stopping - r.first).toNat r.data r.first r.last
  .ok ⟨d, r.first, r.last⟩

/-- deque.dylan lines 188-195: `as(<object-deque>, collection)`, for a collection that iterates over
the elements of a list. -/
def asDequeLoop (no : α) : List α → Rep α → Res (Rep α)
  | [], r => .ok r
  | x :: xs, r => do
    let r ← pushLast no loopFuel r x
    asDequeLoop no xs r

/-- deque.dylan lines 188-195. -/
def asDeque (no : α) (l : List α) : Res (Rep α) := do
  let r ← make no 0 none
  asDequeLoop no l r

/-- deque.dylan lines 201-203: the writing loop of `as(<object-deque>, array)`. -/
def writeLoop : List α → List α → Int → Res (List α)
  | [], d, _ => .ok d
  | x :: xs, d, i => do
    let d ← wr d i x
    writeLoop xs d (i + 1)

/-- deque.dylan lines 197-205: `as(<object-deque>, array)`. -/
def asDequeFromArray (no : α) (l : List α) : Res (Rep α) := do
  let r ← make no l.length none
  let d ← writeLoop l r.data r.first
  .ok ⟨d, r.first, r.last⟩

/-- deque.dylan lines 624-642: `copy-sequence` without `start:`/`end:`.  Both ranges of the loop have
the same length, so its rounds are those of the first; the loop body is that of `growLoop`. -/
def copySequence (no : α) (r : Rep α) : Res (Rep α) := do
  let dequeSize := (r.last - r.first) + 1
  let t ← make no dequeSize.toNat none
  let (d, _) ← growLoop r.data (min dequeSize (t.last - t.first + 1)).toNat t.data r.first t.first
  .ok ⟨d, t.first, t.last⟩

/-- deque.dylan lines 671-676: the loop of `as(<list>, deque)`, `n` rounds downward from `index`. -/
def asListLoop (d : List α) : Nat → Int → List α → Res (List α)
  | 0, _, result => .ok result
  | n + 1, index, result => do
    let x ← rd d index
    asListLoop d n (index - 1) (x :: result)

/-- deque.dylan lines 668-678: `as(<list>, deque)`. -/
def asList (r : Rep α) : Res (List α) :=
  asListLoop r.data (r.last - r.first + 1).toNat r.last []

/-- Iterating with an iteration protocol whose states are integers: from `state`, until
`sequence-finished-state?` (sequence.dylan 754-758: `state = limit`), collecting key and element;
`fuel` bounds the number of elements.  The current element is read from the slot `state`
(deque.dylan 574-577, `object-deque-current-element`). -/
def iterate (next key : Int → Int) (d : List α) : Nat → Int → Int → Res (List (Int × α))
  | 0, state, limit => if state = limit then .ok [] else .diverge
  | fuel + 1, state, limit =>
    if state = limit then .ok []
    else do
      let x ← rd d state
      let rest ← iterate next key d fuel (next state) limit
      .ok ((key state, x) :: rest)

/-- deque.dylan lines 569-572 and 587-601: a whole forward iteration: starts at `first-index`, limit
`last-index + 1`, next state `state + 1`, key `state - first-index`. -/
def forward (r : Rep α) (fuel : Nat) : Res (List (Int × α)) :=
  iterate (· + 1) (· - r.first) r.data fuel r.first (r.last + 1)

/-- deque.dylan lines 603-617: a whole backward iteration: starts at `last-index + 1`, limit
`first-index`, next state `state - 1`, key `state` (sequence.dylan 760-763). -/
def backward (r : Rep α) (fuel : Nat) : Res (List (Int × α)) :=
  iterate (· - 1) id r.data fuel (r.last + 1) r.first

/-- The operations a history is made of. -/
inductive Op (α : Type) where
  | push (x : α)
  | pushLast (x : α)
  | pop
  | popLast
  | size
  | isEmpty
  | element (index : Int) (default : Option α)
  | setElement (x : α) (index : Int)
  | setSize (n : Int)
  | remove (p : α → Bool) (count : Option Int)
  | reverse
  /-- go on with the copy `copy-sequence` makes -/
  | copy

/-- One operation on a deque: dispatch to the functions above. -/
def step (no : α) (r : Rep α) : Op α → Res (Out α × Rep α)
  | .push x => do let r ← push no loopFuel r x; .ok (.unit, r)
  | .pushLast x => do let r ← pushLast no loopFuel r x; .ok (.unit, r)
  | .pop => pop no r
  | .popLast => popLast no r
  | .size => .ok (.num (size r), r)
  | .isEmpty => .ok (.bool (isEmpty r), r)
  | .element i d => do let o ← element r i d; .ok (o, r)
  | .setElement x i => setElement no loopFuel r x i
  | .setSize n => setSize no n r
  | .remove p c => do let r ← remove no p c r; .ok (.unit, r)
  | .reverse => do let r ← reverse r; .ok (.unit, r)
  | .copy => do let r ← copySequence no r; .ok (.unit, r)

/-- A history: the results of all operations and the final deque. -/
def run (no : α) : Rep α → List (Op α) → Res (List (Out α) × Rep α)
  | r, [] => .ok ([], r)
  | r, op :: ops => do
    let (o, r) ← step no r op
    let (os, r) ← run no r ops
    .ok (o :: os, r)

end Verif.Deque
