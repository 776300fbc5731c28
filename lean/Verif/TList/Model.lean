/-!
# Lists with a pointer to the last pair

`<t-list>` of `sources/lib/t-lists/t-lists.dylan` (TL): a deque made of pairs, with a pointer to the first and one to the last pair.
The pairs are in a memory, so that two such lists can share pairs.

Simplifications: the address of a pair is the number of pairs that were made before it, and `#()` is `none`; indices are not
negative, and no `default:` is given.  `size` counts at most as many pairs as there are in memory, and the search in `pop-last` goes
on for at most as many steps; the real ones do not end when the pairs form a circle.  `#()` has a slot `head` of its own
(`sources/dfmc/modeling/objects.dylan` 288-299): reading it is an outcome of its own, and what is stored there is not modelled.
-/

namespace Verif.TList

/-- A pair: `head` and `tail`. -/
abbrev Cells (α : Type) := List (α × Option Nat)

/-- `<t-list>` (TL:10-13). -/
structure TL where
  first : Option Nat := none
  last : Option Nat := none
  deriving DecidableEq

/-- The memory and the lists, which have numbers as names. -/
structure World (α : Type) where
  cells : Cells α
  lists : Nat → TL

/-- What an operation returns: a value, a size, the list, the head of `#()`, or an error. -/
inductive Out (α : Type) where
  | val (x : α)
  | num (n : Nat)
  | done
  | emptyHead
  | err
  deriving DecidableEq

inductive Op (α : Type) where
  | push (i : Nat) (x : α)
  | pushLast (i : Nat) (x : α)
  | pop (i : Nat)
  | popLast (i : Nat)
  | append (i j : Nat)
  | size (i : Nat)
  | get (i n : Nat)
  | set (i n : Nat) (x : α)
  | getLast (i : Nat)
  | setLast (i : Nat) (x : α)

variable {α : Type}

/-- One list is changed. -/
def update {β : Type} (f : Nat → β) (i : Nat) (x : β) : Nat → β := fun j => if j = i then x else f j

/-- `tail`; that of `#()` is `#()`. -/
def tailOf (c : Cells α) (o : Option Nat) : Option Nat :=
  match o with
  | none => none
  | some a => (c[a]?).bind Prod.snd

/-- `tail-setter`. -/
def setTail (c : Cells α) (a : Nat) (o : Option Nat) : Cells α := c.modify a fun p => (p.1, o)

/-- `head-setter`. -/
def setHead (c : Cells α) (a : Nat) (x : α) : Cells α := c.modify a fun p => (x, p.2)

/-- `head`. -/
def headOf (c : Cells α) (o : Option Nat) : Out α :=
  match o with
  | none => .emptyHead
  | some a => match c[a]? with
    | some p => .val p.1
    | none => .err

/-- `push` (TL:59-67). -/
def push (c : Cells α) (t : TL) (x : α) : Cells α × TL :=
  if t.first = none then (c ++ [(x, none)], ⟨some c.length, some c.length⟩)
  else (c ++ [(x, t.first)], { t with first := some c.length })

/-- `push-last` (TL:69-79). -/
def pushLast (c : Cells α) (t : TL) (x : α) : Cells α × TL :=
  if t.first = none then (c ++ [(x, none)], ⟨some c.length, some c.length⟩)
  else match t.last with
    | none => (c, t)
    | some b => (setTail (c ++ [(x, tailOf c t.last)]) b (some c.length), { t with last := some c.length })

/-- `pop` (TL:81-93). -/
def pop (c : Cells α) (t : TL) : TL × Out α :=
  if t.first = none then (t, .err)
  else (if t.first = t.last then ⟨none, none⟩ else { t with first := tailOf c t.first }, headOf c t.first)

/-- The search for the pair before the last one (TL:106-108). -/
def findPrev (c : Cells α) (last : Option Nat) : Nat → Option Nat → Option Nat
  | 0, _ => none
  | k + 1, o => if tailOf c o = last then o else findPrev c last k (tailOf c o)

/-- `pop-last` (TL:98-116). -/
def popLast (c : Cells α) (t : TL) : Cells α × TL × Out α :=
  if t.first = none then (c, t, .err)
  else if t.first = t.last then (c, ⟨none, none⟩, headOf c t.last)
  else match findPrev c t.last (c.length + 1) t.first with
    | some q => (setTail c q none, { t with last := some q }, headOf c t.last)
    | none => (c, t, .err)

/-- `append!` (TL:129-141). -/
def append (c : Cells α) (t u : TL) : Cells α × TL :=
  if u.first = none then (c, t)
  else if t.first = none then (c, u)
  else match t.last with
    | none => (c, t)
    | some b => (setTail c b u.first, { t with last := u.last })

/-- `size` (TL:183-185) by way of that of lists. -/
def count (c : Cells α) : Nat → Option Nat → Nat
  | 0, _ => 0
  | _ + 1, none => 0
  | k + 1, some a => count c k (tailOf c (some a)) + 1

/-- The state after `n` steps of the iteration, or `none` if it is finished before (TL:293-295, 313-315). -/
def walk (c : Cells α) : Option Nat → Nat → Option (Option Nat)
  | o, 0 => some o
  | none, _ + 1 => none
  | some a, n + 1 => walk c (tailOf c (some a)) n

/-- `element` (TL:192-228 for the indices 0, 1 and 2, which look whether the list ends before the element, and 286-305 for others). -/
def get (c : Cells α) (t : TL) (n : Nat) : Out α :=
  match walk c t.first n with
  | none => .err
  | some none => if n < 3 then .err else .emptyHead
  | some (some a) => headOf c (some a)

/-- `element-setter` (TL:230-263 and 307-324). -/
def set (c : Cells α) (t : TL) (n : Nat) (x : α) : Cells α × Out α :=
  match walk c t.first n with
  | none => (c, .err)
  | some none => (c, if n < 3 then .err else .val x)
  | some (some a) => (setHead c a x, .val x)

/-- `last` (TL:265-274). -/
def getLast (c : Cells α) (t : TL) : Out α :=
  match t.last with
  | none => .err
  | some b => headOf c (some b)

/-- `last-setter` (TL:276-284). -/
def setLast (c : Cells α) (t : TL) (x : α) : Cells α × Out α :=
  match t.last with
  | none => (c, .err)
  | some b => (setHead c b x, .val x)

/-- The operations on the lists of a world. -/
def exec (w : World α) : Op α → World α × Out α
  | .push i x => (⟨(push w.cells (w.lists i) x).1, update w.lists i (push w.cells (w.lists i) x).2⟩, .val x)
  | .pushLast i x => (⟨(pushLast w.cells (w.lists i) x).1, update w.lists i (pushLast w.cells (w.lists i) x).2⟩, .val x)
  | .pop i => (⟨w.cells, update w.lists i (pop w.cells (w.lists i)).1⟩, (pop w.cells (w.lists i)).2)
  | .popLast i => (⟨(popLast w.cells (w.lists i)).1, update w.lists i (popLast w.cells (w.lists i)).2.1⟩,
      (popLast w.cells (w.lists i)).2.2)
  | .append i j => (⟨(append w.cells (w.lists i) (w.lists j)).1, update w.lists i (append w.cells (w.lists i) (w.lists j)).2⟩, .done)
  | .size i => (w, .num (count w.cells (w.cells.length + 1) (w.lists i).first))
  | .get i n => (w, get w.cells (w.lists i) n)
  | .set i n x => (⟨(set w.cells (w.lists i) n x).1, w.lists⟩, (set w.cells (w.lists i) n x).2)
  | .getLast i => (w, getLast w.cells (w.lists i))
  | .setLast i x => (⟨(setLast w.cells (w.lists i) x).1, w.lists⟩, (setLast w.cells (w.lists i) x).2)

/-- A sequence of operations, with what they return. -/
def run (w : World α) : List (Op α) → World α × List (Out α)
  | [] => (w, [])
  | o :: l => ((run (exec w o).1 l).1, (exec w o).2 :: (run (exec w o).1 l).2)

/-- At the start all lists are empty. -/
def start : World α := ⟨[], fun _ => {}⟩

end Verif.TList
