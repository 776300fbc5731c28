/-!
# Property lists

`sources/collections/plists.dylan` (PL), and `concatenate!` of `sources/common-dylan/common-extensions.dylan` (CE) 37-85.

A vector is the list of its elements; an access outside it is a result of its own, since the code turns bounds checks off.
A list is a pointer into a memory of pairs.  Objects are compared by `==`, which is equality of `α`; two of them, `#f` and
`#()`, are parameters.

Simplifications: loops that may not end on circular lists have a bound on their rounds, and give `none` when they reach
it; memory is not exhausted.
-/

namespace Verif.Plist

/-! ### Vectors -/

/-- What a call on a vector does. -/
inductive Out (β : Type) where
  | ok (b : β)
  /-- "This plist does not have even length". -/
  | odd
  /-- An access outside the vector, which is not checked. -/
  | outside
  deriving DecidableEq, Repr

/-- Sequencing. -/
def Out.bind {β γ : Type} : Out β → (β → Out γ) → Out γ
  | .ok b, f => f b
  | .odd, _ => .odd
  | .outside, _ => .outside

variable {α : Type} [DecidableEq α]

/-- `plist[i]` without a bounds check. -/
def at' (xs : List α) (i : Nat) : Out α :=
  match xs[i]? with
  | some x => .ok x
  | none => .outside

/-- `plist[i] := x` without a bounds check. -/
def put' (xs : List α) (i : Nat) (x : α) : Out (List α) := if i < xs.length then .ok (xs.set i x) else .outside

/-- `assert(even?(length), ...)`. -/
def even {β : Type} (xs : List α) (k : Out β) : Out β := if xs.length % 2 = 0 then k else .odd

/-- The loop of `get-property` (PL:45-51); the rounds are at most the first argument. -/
def getLoop (xs : List α) (k default : α) : Nat → Nat → Out α
  | 0, _ => .ok default
  | n + 1, i =>
    if i < xs.length then (at' xs i).bind fun x => if x = k then at' xs (i + 1) else getLoop xs k default n (i + 2)
    else .ok default

/-- `get-property` of a vector (PL:38-54). -/
def getVector (xs : List α) (k default : α) : Out α := even xs (getLoop xs k default xs.length 0)

/-- The loop of `do-put-property!` (PL:87-94). -/
def putLoop (xs : List α) (k v : α) : Nat → Nat → Out (List α)
  | 0, _ => .ok (xs ++ [k, v])
  | n + 1, i =>
    if i < xs.length then (at' xs i).bind fun x => if x = k then put' xs (i + 1) v else putLoop xs k v n (i + 2)
    else .ok (xs ++ [k, v])

/-- `do-put-property!` of a vector (PL:80-97). -/
def putVector (xs : List α) (k v : α) : Out (List α) := even xs (putLoop xs k v xs.length 0)

/-- The loop of `keyword-sequence` (PL:113-115) and of `value-sequence` (PL:128-130), which fills a vector from index `i`;
`d` is 0 or 1. -/
def everySecond (xs : List α) (d : Nat) : Nat → Nat → Out (List α)
  | 0, _ => .ok []
  | n + 1, i => (at' xs (i + i + d)).bind fun x => (everySecond xs d n (i + 1)).bind fun r => .ok (x :: r)

/-- `keyword-sequence` of a vector (PL:105-118). -/
def keywordsVector (xs : List α) : Out (List α) := even xs (everySecond xs 0 (xs.length / 2) 0)
/-- `value-sequence` of a vector (PL:120-133). -/
def valuesVector (xs : List α) : Out (List α) := even xs (everySecond xs 1 (xs.length / 2) 0)

/-- The loop of `do-remove-property!` of a stretchy vector (PL:209-217), which moves elements down. -/
def removeLoop (k : α) : Nat → List α → Nat → Nat → α → Out (List α × Nat × α)
  | 0, xs, _, j, value => .ok (xs, j, value)
  | n + 1, xs, i, j, value =>
    if i < xs.length then
      (at' xs i).bind fun x =>
        if x = k then (at' xs (i + 1)).bind fun v => removeLoop k n xs (i + 2) j v
        else (put' xs j x).bind fun ys => (at' ys (i + 1)).bind fun v => (put' ys (j + 1) v).bind fun zs =>
          removeLoop k n zs (i + 2) (j + 2) value
    else .ok (xs, j, value)

/-- `do-remove-property!` of a stretchy vector (PL:201-221): the value and the vector. -/
def removeStretchy (false' : α) (xs : List α) (k : α) : Out (α × List α) :=
  even xs ((removeLoop k xs.length xs 0 0 false').bind fun r => .ok (r.2.2, r.1.take r.2.1))

/-- The loop that counts (PL:232-234). -/
def countLoop (xs : List α) (k : α) : Nat → Nat → Nat → Out Nat
  | 0, _, count => .ok count
  | n + 1, i, count =>
    if i < xs.length then
      (at' xs i).bind fun x => countLoop xs k n (i + 2) (if x = k then count + 2 else count)
    else .ok count

/-- The loop that copies the elements with a keyword that is not removed (PL:241-249, 329-337, 341-349).  The value is
that of the last keyword that was removed. -/
def copyLoop (xs : List α) (removed : α → Bool) : Nat → List α → Nat → Nat → α → Out (List α × Nat × α)
  | 0, ys, _, j, value => .ok (ys, j, value)
  | n + 1, ys, i, j, value =>
    if i < xs.length then
      (at' xs i).bind fun x => (at' xs (i + 1)).bind fun v =>
        if removed x then copyLoop xs removed n ys (i + 2) j v
        else (put' ys j x).bind fun ys => (put' ys (j + 1) v).bind fun ys => copyLoop xs removed n ys (i + 2) (j + 2) value
    else .ok (ys, j, value)

/-- `do-remove-property!` of a simple vector (PL:223-253). -/
def removeSimple (false' : α) (xs : List α) (k : α) : Out (α × List α) :=
  even xs ((countLoop xs k xs.length 0 0).bind fun count =>
    if count = 0 then .ok (false', xs)
    else (copyLoop xs (fun x => decide (x = k)) xs.length (List.replicate (xs.length - count) false') 0 0 false').bind
      fun r => .ok (r.2.2, r.1))

/-- The tests of `remove-keywords` (PL:326, 332, 344). -/
def among : List α → α → Bool
  | [keyword], x => decide (keyword = x)
  | keywords, x => keywords.contains x

/-- `remove-keywords` of a vector (PL:314-355). -/
def removeKeywords (false' : α) (xs : List α) (keywords : List α) : Out (List α) :=
  if xs = [] ∨ keywords = [] then .ok xs
  else
    even xs ((copyLoop xs (among keywords) xs.length (List.replicate xs.length false') 0 0 false').bind
      fun r => .ok (r.1.take r.2.1))

/-! ### Lists -/

/-- A pair. -/
structure Cell (α : Type) where
  head : α
  tail : Option Nat

/-- The memory: the pairs by address, and the next address. -/
structure Mem (α : Type) where
  cells : Nat → Cell α
  next : Nat

/-- `head(p)`; the head of `#()` is `#()`. -/
def Mem.head (m : Mem α) (nil : α) : Option Nat → α
  | none => nil
  | some a => (m.cells a).head

/-- `tail(p)`; the tail of `#()` is `#()`. -/
def Mem.tail (m : Mem α) : Option Nat → Option Nat
  | none => none
  | some a => (m.cells a).tail

/-- `head(a) := x`. -/
def Mem.setHead (m : Mem α) (a : Nat) (x : α) : Mem α :=
  { m with cells := fun b => if b = a then { m.cells a with head := x } else m.cells b }

/-- `tail(a) := t`. -/
def Mem.setTail (m : Mem α) (a : Nat) (t : Option Nat) : Mem α :=
  { m with cells := fun b => if b = a then { m.cells a with tail := t } else m.cells b }

/-- `get-property` of a list (PL:25-36). -/
def getList (m : Mem α) (nil k default : α) : Nat → Option Nat → Option α
  | _, none => some default
  | 0, some _ => none
  | n + 1, some a =>
    if (m.cells a).head = k then some (m.head nil (m.cells a).tail)
    else getList m nil k default n (m.tail (m.cells a).tail)

/-- `list(k, v)`: a pair of pairs. -/
def Mem.list2 (m : Mem α) (k v : α) : Mem α × Option Nat :=
  (⟨fun b => if b = m.next then ⟨v, none⟩ else if b = m.next + 1 then ⟨k, some m.next⟩ else m.cells b, m.next + 2⟩,
    some (m.next + 1))

/-- `find-tail` in `concatenate!` (CE:73-79). -/
def findTail (m : Mem α) (x : Option Nat) : Nat → Nat → Option (Mem α)
  | 0, _ => none
  | n + 1, a =>
    match (m.cells a).tail with
    | none => some (m.setTail a x)
    | some b => findTail m x n b

/-- `concatenate!(p, x)` with a list `x` that is not empty (CE:54-85). -/
def concatenate (m : Mem α) (n : Nat) (p x : Option Nat) : Option (Mem α × Option Nat) :=
  match p with
  | none => some (m, x)
  | some a => (findTail m x n a).map fun m => (m, p)

/-- `do-put-property!` of a list (PL:65-78).  `& pl` is true of every list. -/
def putList (m : Mem α) (k v : α) (bound : Nat) (plist : Option Nat) : Nat → Option Nat → Option (Mem α × Option Nat)
  | _, none => let l := m.list2 k v; concatenate l.1 bound plist l.2
  | 0, some _ => none
  | n + 1, some a =>
    if (m.cells a).head = k then
      match (m.cells a).tail with
      | some b => some (m.setHead b v, plist)
      | none => none
    else putList m k v bound plist n (m.tail (m.cells a).tail)

/-- The loop of `do-remove-property!` of a list (PL:177-197): the value, the memory and the list. -/
def removeList (m : Mem α) (false' k : α) (plist : Option Nat) :
    Nat → Option Nat → Option Nat → Option (α × Mem α × Option Nat)
  | _, none, _ => some (false', m, plist)
  | 0, some _, _ => none
  | n + 1, some a, ppl =>
    if (m.cells a).head = k then
      match (m.cells a).tail with
      | none => none
      | some b =>
        if some a = plist then some ((m.cells b).head, m, m.tail (m.tail plist))
        else match ppl with
          | none => none
          | some c => some ((m.cells b).head, m.setTail c (m.cells b).tail, plist)
    else
      removeList m false' k plist n (m.tail (m.cells a).tail)
        (if some a = plist then (m.cells a).tail else m.tail (m.tail ppl))

/-- `keyword-sequence` of a list (PL:135-145). -/
def keywordsList (m : Mem α) : Nat → Option Nat → List α → Option (List α)
  | _, none, acc => some acc.reverse
  | 0, some _, _ => none
  | n + 1, some a, acc => keywordsList m n (m.tail (m.cells a).tail) ((m.cells a).head :: acc)

/-- `value-sequence` of a list (PL:147-158), which signals an error when the length is odd. -/
def valuesList (m : Mem α) : Nat → Option Nat → List α → Option (List α)
  | _, none, acc => some acc.reverse
  | 0, some _, _ => none
  | n + 1, some a, acc =>
    match (m.cells a).tail with
    | none => none
    | some b => valuesList m n (m.cells b).tail ((m.cells b).head :: acc)

end Verif.Plist
