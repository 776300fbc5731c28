/-!
# Lists

Lists are objects in memory: pairs with two slots that can be assigned, and one empty list, which is
an object with the same two slots.  Several lists may share pairs, lists may be circular, and the tail
of a pair may be any object.  All of this is in the model: a heap of cells, of which number 0 is the
empty list.  Loops take a number of rounds as fuel; running out of it is the outcome `loop`.

Models `sources/dylan/list.dylan`.  Memory is unlimited.  `size(collection)` of an `insert:` argument
that is not a list is the length of the list of values that stands for it.
-/
namespace Verif.Lists

/-- An object: a list (0 is the empty list) or anything else. -/
inductive Val
  | ref (a : Nat)
  | obj (n : Nat)
  deriving DecidableEq, Repr

/-- The slots `head` and `tail` of `<list>` (sources/dfmc/modeling/objects.dylan 288-299). -/
structure Cell where
  head : Val
  tail : Val
  deriving DecidableEq, Repr

/-- The memory: the cells, and the number of cells in use. -/
structure Heap where
  cells : Nat → Cell
  next : Nat

/-- What a call does besides returning. -/
inductive Fail
  | typeError | invalidIndex | improper | naturalNumber | bounds | loop
  deriving DecidableEq, Repr

/-- `#()`. -/
def nil : Val := .ref 0

/-- `instance?(x, <pair>)`. -/
def isPair : Val → Bool
  | .ref a => a ≠ 0
  | .obj _ => false

/-- The slot getter `head` of `<list>` (objects.dylan 289); of the empty list too. -/
def head (h : Heap) : Val → Except Fail Val
  | .ref a => .ok (h.cells a).head
  | .obj _ => .error .typeError

/-- The slot getter `tail` of `<list>` (objects.dylan 290); of the empty list too. -/
def tail (h : Heap) : Val → Except Fail Val
  | .ref a => .ok (h.cells a).tail
  | .obj _ => .error .typeError

/-- One cell changed. -/
def Heap.set (h : Heap) (a : Nat) (c : Cell) : Heap :=
  { h with cells := fun b => if b = a then c else h.cells b }

/-- The slot setter `head-setter` of `<list>` (objects.dylan 289). The slot is defined on `<list>`, so
the setter takes the empty list too. -/
def setHead (h : Heap) (x : Val) : Val → Except Fail Heap
  | .ref a => .ok (h.set a ⟨x, (h.cells a).tail⟩)
  | .obj _ => .error .typeError

/-- The slot setter `tail-setter` of `<list>` (objects.dylan 290). -/
def setTail (h : Heap) (x : Val) : Val → Except Fail Heap
  | .ref a => .ok (h.set a ⟨(h.cells a).head, x⟩)
  | .obj _ => .error .typeError

/-- `pair` (list.dylan 23-28): a new cell. -/
def pair (h : Heap) (x y : Val) : Heap × Val :=
  ({ cells := fun b => if b = h.next then ⟨x, y⟩ else h.cells b, next := h.next + 1 }, .ref h.next)

/-- The loop `sum` of `size` (list.dylan 181-205): `fast` takes two steps where `slow` takes one. -/
def sizeLoop (h : Heap) : Nat → Nat → Val → Val → Except Fail (Option Nat)
  | 0, _, _, _ => .error .loop
  | fuel + 1, count, fast, slow => do
    let fastTail ← tail h fast
    if fastTail = nil then .ok (some (count + 1))
    else if fast = slow ∧ count > 0 then .ok none
    else if isPair fastTail then do
      let fastTailTail ← tail h fastTail
      if fastTailTail = nil then .ok (some (count + 2))
      else if isPair fastTailTail then do
        let slowTail ← tail h slow
        if isPair slowTail then sizeLoop h fuel (count + 2) fastTailTail slowTail
        else .error .typeError
      else .error .improper
    else .error .improper

/-- `size` (list.dylan 176-207): `none` is `#f`, the size of a circular list. -/
def size (fuel : Nat) (h : Heap) (list : Val) : Except Fail (Option Nat) :=
  if list = nil then .ok (some 0)
  else if isPair list then sizeLoop h fuel 0 list list
  else .error .typeError

/-- The loop of `element` (list.dylan 242-251). -/
def elementLoop (h : Heap) (key : Int) (default : Option Val) : Nat → Val → Int → Except Fail Val
  | 0, _, _ => .error .loop
  | fuel + 1, l, i =>
    if isPair l then
      if i = key then head h l
      else do
        let t ← tail h l
        elementLoop h key default fuel t (i + 1)
    else match default with
      | none => .error .invalidIndex
      | some d => .ok d

/-- `element` (list.dylan 236-253). -/
def element (fuel : Nat) (h : Heap) (lst : Val) (key : Int) (default : Option Val) :
    Except Fail Val :=
  if key < 0 then
    match default with
    | none => .error .invalidIndex
    | some d => .ok d
  else elementLoop h key default fuel lst 0

/-- `element-setter` (list.dylan 292-303). -/
def elementSetter (h : Heap) (x : Val) (key : Int) : Nat → Val → Int → Except Fail Heap
  | 0, _, _ => .error .loop
  | fuel + 1, l, i =>
    if isPair l then
      if i = key then setHead h x l
      else do
        let t ← tail h l
        elementSetter h x key fuel t (i + 1)
    else .error .invalidIndex

/-- `check-nat(count)` or -1 (list.dylan 436, 519; collection.dylan 1078-1084). -/
def countOf : Option Int → Except Fail Int
  | none => .ok (-1)
  | some c => if c < 0 then .error .naturalNumber else .ok c

/-- The first loop of `remove` (list.dylan 440-452). Answers `rev-accumulator`, `remaining`, `result`. -/
def removeLoop (test : Val → Bool) : Nat → Heap → Int → Val → Val → Val →
    Except Fail (Heap × Val × Val × Val)
  | 0, _, _, _, _, _ => .error .loop
  | fuel + 1, h, count, acc, remaining, result =>
    if isPair remaining then do
      let x ← head h remaining
      let t ← tail h remaining
      if test x then
        if count - 1 = 0 then removeLoop test fuel h (count - 1) acc nil t
        else removeLoop test fuel h (count - 1) acc t result
      else
        let (h, acc) := pair h x acc
        removeLoop test fuel h count acc t result
    else .ok (h, acc, remaining, result)

/-- The second loop of `remove` (list.dylan 460-465), and the one of `concatenate-as-two`
(list.dylan 865-868): the accumulated pairs are put in front of the result, in reverse. -/
def unwind : Nat → Heap → Val → Val → Except Fail (Heap × Val)
  | 0, _, _, _ => .error .loop
  | fuel + 1, h, acc, result =>
    if acc = nil then .ok (h, result)
    else do
      let t ← tail h acc
      let h ← setTail h result acc
      unwind fuel h t acc

/-- `remove` (list.dylan 430-469); `test` is the test with the value given. -/
def remove (fuel : Nat) (h : Heap) (l : Val) (test : Val → Bool) (count : Option Int) :
    Except Fail (Heap × Val) := do
  let count ← countOf count
  if count = 0 then .ok (h, l)
  else do
    let (h, acc, remaining, result) ← removeLoop test fuel h count nil l nil
    if remaining ≠ nil then .error .improper
    else unwind fuel h acc result

/-- The loop of `remove!` (list.dylan 522-535); `prev` is `none` for `#f`. Answers `result` and
`remaining`. -/
def removeBangLoop (test : Val → Bool) : Nat → Heap → Int → Option Val → Val → Val →
    Except Fail (Heap × Val × Val)
  | 0, _, _, _, _, _ => .error .loop
  | fuel + 1, h, count, prev, remaining, result =>
    if isPair remaining then do
      let x ← head h remaining
      if test x = false then do
        let t ← tail h remaining
        removeBangLoop test fuel h count (some remaining) t result
      else do
        let t ← tail h remaining
        let (h, result) ← match prev with
          | some p => do
            let h ← setTail h t p
            pure (h, result)
          | none => pure (h, t)
        let remaining := if count - 1 = 0 then nil else remaining
        let t ← tail h remaining
        removeBangLoop test fuel h (count - 1) prev t result
    else .ok (h, result, remaining)

/-- `remove!` (list.dylan 513-545). -/
def removeBang (fuel : Nat) (h : Heap) (l : Val) (test : Val → Bool) (count : Option Int) :
    Except Fail (Heap × Val) := do
  let count ← countOf count
  if count = 0 then .ok (h, l)
  else do
    let (h, result, remaining) ← removeBangLoop test fuel h count none l l
    if remaining ≠ nil then .error .improper
    else .ok (h, result)

/-- The loop of `member?` on lists (list.dylan 330-336); the list is not empty at the first round.
With the test `==` the code takes another loop (list.dylan 341-362), which differs on lists that do not
end in the empty list only: there it looks at the last pair before the type error. -/
def memberLoop (h : Heap) (test : Val → Bool) : Nat → Val → Except Fail Bool
  | 0, _ => .error .loop
  | fuel + 1, l => do
    let x ← head h l
    let t ← tail h l
    match t with
    | .obj _ => .error .typeError
    | .ref _ =>
      if test x then .ok true
      else if t = nil then .ok false
      else memberLoop h test fuel t

/-- `member?` on lists (list.dylan 323-338). -/
def member (fuel : Nat) (h : Heap) (test : Val → Bool) (l : Val) : Except Fail Bool :=
  if l = nil then .ok false else memberLoop h test fuel l

/-- The loop of `xmember?` (list.dylan 365-374). -/
def xmember (h : Heap) (test : Val → Bool) : Nat → Val → Except Fail Bool
  | 0, _ => .error .loop
  | fuel + 1, x =>
    if isPair x then do
      let e ← head h x
      if test e then .ok true
      else do
        let t ← tail h x
        xmember h test fuel t
    else .ok false

/-- `add-new` and `add-new!` (list.dylan 398-422). -/
def addNew (fuel : Nat) (h : Heap) (l : Val) (x : Val) (test : Val → Val → Bool) :
    Except Fail (Heap × Val) := do
  if ← xmember h (fun e => test e x) fuel l then .ok (h, l) else .ok (pair h x l)

/-- `list-current-key` (list.dylan 670-679): the state is looked for from the start of the list. -/
def currentKey (h : Heap) (state : Val) : Nat → Val → Int → Except Fail Int
  | 0, _, _ => .error .loop
  | fuel + 1, l, k =>
    if l = state then .ok k
    else do
      let t ← tail h l
      currentKey h state fuel t (k + 1)

/-- The loop of `remove-duplicates` (list.dylan 558-573). -/
def removeDuplicatesLoop (test : Val → Val → Bool) : Nat → Heap → Option Val → Val → Val →
    Except Fail (Heap × Val × Val)
  | 0, _, _, _, _ => .error .loop
  | fuel + 1, h, prev, remaining, result =>
    if isPair remaining then do
      let x ← head h remaining
      let t ← tail h remaining
      if ← member fuel h (test x) t then removeDuplicatesLoop test fuel h prev t result
      else
        let (h, next) := pair h x nil
        match prev with
        | some p => do
          let h ← setTail h next p
          removeDuplicatesLoop test fuel h (some next) t result
        | none => removeDuplicatesLoop test fuel h (some next) t next
    else .ok (h, result, remaining)

/-- `remove-duplicates` (list.dylan 552-582). -/
def removeDuplicates (fuel : Nat) (h : Heap) (l : Val) (test : Val → Val → Bool) :
    Except Fail (Heap × Val) := do
  let (h, result, remaining) ← removeDuplicatesLoop test fuel h none l nil
  if remaining ≠ nil then .error .improper else .ok (h, result)

/-- The loop of `remove-duplicates!` (list.dylan 594-605). -/
def removeDuplicatesBangLoop (test : Val → Val → Bool) : Nat → Heap → Option Val → Val → Val →
    Except Fail (Heap × Val × Val)
  | 0, _, _, _, _ => .error .loop
  | fuel + 1, h, prev, remaining, result =>
    if isPair remaining then do
      let x ← head h remaining
      let t ← tail h remaining
      if (← member fuel h (test x) t) = false then
        removeDuplicatesBangLoop test fuel h (some remaining) t result
      else match prev with
        | some p => do
          let h ← setTail h t p
          removeDuplicatesBangLoop test fuel h prev t result
        | none => removeDuplicatesBangLoop test fuel h prev t t
    else .ok (h, result, remaining)

/-- `remove-duplicates!` (list.dylan 588-614). -/
def removeDuplicatesBang (fuel : Nat) (h : Heap) (l : Val) (test : Val → Val → Bool) :
    Except Fail (Heap × Val) := do
  let (h, result, remaining) ← removeDuplicatesBangLoop test fuel h none l l
  if remaining ≠ nil then .error .improper else .ok (h, result)

/-- The loop of `last` (list.dylan 630-634). Answers the last pair. -/
def lastLoop (h : Heap) : Nat → Val → Except Fail Val
  | 0, _ => .error .loop
  | fuel + 1, sub => do
    let t ← tail h sub
    if isPair t then lastLoop h fuel t else .ok sub

/-- `last` (list.dylan 621-636). -/
def last (fuel : Nat) (h : Heap) (lst : Val) (default : Option Val) : Except Fail Val :=
  if lst = nil then
    match default with
    | none => .error .invalidIndex
    | some d => .ok d
  else do
    let sub ← lastLoop h fuel lst
    head h sub

/-- The loop of `last-setter` (list.dylan 647-651). -/
def lastSetterLoop (h : Heap) : Nat → Val → Except Fail Val
  | 0, _ => .error .loop
  | fuel + 1, sub => do
    let t ← tail h sub
    if t = nil then .ok sub
    else if isPair t then lastSetterLoop h fuel t
    else .error .typeError

/-- `last-setter` (list.dylan 643-653). -/
def lastSetter (fuel : Nat) (h : Heap) (x : Val) (lst : Val) : Except Fail Heap :=
  if lst = nil then .error .invalidIndex
  else do
    let sub ← lastSetterLoop h fuel lst
    setHead h x sub

/-- `reduce` on lists (list.dylan 895-903). -/
def reduce {β : Type} (h : Heap) (fn : β → Val → β) : Nat → β → Val → Except Fail β
  | 0, _, _ => .error .loop
  | fuel + 1, result, l =>
    if l = nil then .ok result
    else do
      let x ← head h l
      let t ← tail h l
      reduce h fn fuel (fn result x) t

/-- `reverse` (list.dylan 804-813). -/
def reverse : Nat → Heap → Val → Val → Except Fail (Heap × Val)
  | 0, _, _, _ => .error .loop
  | fuel + 1, h, l, ans =>
    if isPair l then do
      let x ← head h l
      let t ← tail h l
      let (h, ans) := pair h x ans
      reverse fuel h t ans
    else .ok (h, ans)

/-- `reverse!` (list.dylan 834-845). -/
def reverseBang : Nat → Heap → Val → Val → Except Fail (Heap × Val)
  | 0, _, _, _ => .error .loop
  | fuel + 1, h, l, result =>
    if isPair l then do
      let nxt ← tail h l
      let h ← setTail h result l
      reverseBang fuel h nxt l
    else .ok (h, result)

/-- `for (v in l, result = #() then pair(v, result)) finally result` (list.dylan 717-720, 740-743, 862)
with the iteration of lists (list.dylan 660-705), which ends at the empty list only. -/
def copyRev : Nat → Heap → Val → Val → Except Fail (Heap × Val)
  | 0, _, _, _ => .error .loop
  | fuel + 1, h, l, result =>
    if l = nil then .ok (h, result)
    else do
      let x ← head h l
      let (h, result) := pair h x result
      let t ← tail h l
      copyRev fuel h t result

/-- The loop to the start of the copy (list.dylan 723-725): `i` and `l` when it ends. -/
def skipLoop (h : Heap) (first : Int) : Nat → Val → Int → Except Fail (Val × Int)
  | 0, _, _ => .error .loop
  | fuel + 1, l, i =>
    if i < first ∧ l ≠ nil then do
      let t ← tail h l
      skipLoop h first fuel t (i + 1)
    else .ok (l, i)

/-- The loop over the copied elements (list.dylan 731-734). -/
def takeLoop (last : Int) : Nat → Heap → Val → Int → Val → Except Fail (Heap × Val × Int)
  | 0, _, _, _, _ => .error .loop
  | fuel + 1, h, l, i, result =>
    if i < last ∧ l ≠ nil then do
      let x ← head h l
      let (h, result) := pair h x result
      let t ← tail h l
      takeLoop last fuel h t (i + 1) result
    else .ok (h, result, i)

/-- `copy-sequence` on lists (list.dylan 712-747). -/
def copySequence (fuel : Nat) (h : Heap) (source : Val) (first : Int) (last : Option Int) :
    Except Fail (Heap × Val) :=
  if first = 0 ∧ last = none then do
    let (h, r) ← copyRev fuel h source nil
    reverseBang fuel h r nil
  else if first < 0 then .error .bounds
  else do
    let (l, i) ← skipLoop h first fuel source 0
    if i < first then .error .bounds
    else match last with
      | some last =>
        if last < first then .error .bounds
        else do
          let (h, r, i) ← takeLoop last fuel h l i nil
          if i < last then .error .bounds else reverseBang fuel h r nil
      | none => do
        let (h, r) ← copyRev fuel h l nil
        reverseBang fuel h r nil

/-- A sequence to insert: a list in memory, or a sequence of another class with these elements. -/
inductive Insert
  | list (v : Val)
  | other (xs : List Val)

/-- `for (i from 1 to start) prev := tail(prev)` (list.dylan 761-763). -/
def walk (h : Heap) : Nat → Val → Except Fail Val
  | 0, v => .ok v
  | n + 1, v => do
    let t ← tail h v
    walk h n t

/-- The loop for `after-hole` (list.dylan 769-775). -/
def holeLoop (h : Heap) (last : Int) : Nat → Val → Int → Except Fail Val
  | 0, _, _ => .error .loop
  | fuel + 1, v, index =>
    if index = last then .ok v
    else do
      let t ← tail h v
      holeLoop h last fuel t (index + 1)

/-- `for (elt in insert) ...` (list.dylan 777-781), the inserted list being read while the pairs are
linked in. Answers the last pair. -/
def insertList : Nat → Heap → Val → Val → Except Fail (Heap × Val)
  | 0, _, _, _ => .error .loop
  | fuel + 1, h, state, prev =>
    if state = nil then .ok (h, prev)
    else do
      let elt ← head h state
      let (h, next) := pair h elt (.obj 0)
      let h ← setTail h next prev
      let t ← tail h state
      insertList fuel h t next

/-- The same loop over a sequence that is not a list. -/
def insertOther : List Val → Heap → Val → Except Fail (Heap × Val)
  | [], h, prev => .ok (h, prev)
  | elt :: xs, h, prev => do
    let (h, next) := pair h elt (.obj 0)
    let h ← setTail h next prev
    insertOther xs h next

/-- `size(insert)`. A circular list has the size `#f`, which `+` refuses. -/
def insertSize (fuel : Nat) (h : Heap) : Insert → Except Fail Int
  | .list v => do
    match ← size fuel h v with
    | some n => .ok n
    | none => .error .typeError
  | .other xs => .ok xs.length

/-- The value of `last` (list.dylan 765-767). -/
def endOf (fuel : Nat) (h : Heap) (insert : Insert) (start : Int) : Option Int → Except Fail Int
  | some last => .ok last
  | none => do
    let n ← insertSize fuel h insert
    .ok (start + n)

/-- `for (elt in insert) ...` (list.dylan 777-781). -/
def insertAll (fuel : Nat) (h : Heap) (prev : Val) : Insert → Except Fail (Heap × Val)
  | .list v => insertList fuel h v prev
  | .other xs => insertOther xs h prev

/-- `replace-subsequence!` on lists (list.dylan 754-785). `obj 0` stands for `#f`. -/
def replaceSubsequence (fuel : Nat) (h : Heap) (target : Val) (insert : Insert) (start : Int)
    (last : Option Int) : Except Fail (Heap × Val) := do
  let (h, result) := pair h (.obj 0) target
  let prev ← walk h start.toNat result
  let last ← endOf fuel h insert start last
  let t ← tail h prev
  let afterHole ← holeLoop h last fuel t start
  let (h, prev) ← insertAll fuel h prev insert
  let h ← setTail h afterHole prev
  let v ← tail h result
  .ok (h, v)

/-- `as(<list>, collection)` (list.dylan 85-96): a list is itself, another collection is copied. -/
def asList (fuel : Nat) (h : Heap) : Insert → Except Fail (Heap × Val)
  | .list v => .ok (h, v)
  | .other xs =>
    let (h, v) := xs.foldl (fun p x => pair p.1 x p.2) (h, nil)
    reverseBang fuel h v nil

/-- `for (e in first-seq, revcpy = #() then pair(e, revcpy))` (list.dylan 862). -/
def copyRevOf (fuel : Nat) (h : Heap) : Insert → Except Fail (Heap × Val)
  | .list v => copyRev fuel h v nil
  | .other xs => .ok (xs.foldl (fun p x => pair p.1 x p.2) (h, nil))

/-- `empty?` of a sequence. -/
def isEmpty : Insert → Bool
  | .list v => v = nil
  | .other xs => xs.isEmpty

/-- `concatenate-as-two` for lists (list.dylan 852-873). -/
def concatenateTwo (fuel : Nat) (h : Heap) (first second : Insert) : Except Fail (Heap × Val) :=
  if isEmpty second then asList fuel h first
  else do
    let (h, l) ← asList fuel h second
    if isEmpty first then .ok (h, l)
    else do
      let (h, r) ← copyRevOf fuel h first
      unwind fuel h r l

/-- `concatenate-as(<list>, first, ...)` (list.dylan 880-888): from the last sequence to the first. -/
def concatenateRest (fuel : Nat) : Heap → List Insert → Except Fail (Heap × Val)
  | h, [] => .ok (h, nil)
  | h, s :: rest => do
    let (h, acc) ← concatenateRest fuel h rest
    concatenateTwo fuel h s (.list acc)

end Verif.Lists
