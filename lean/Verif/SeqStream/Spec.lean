/-
What a sequence stream is for its user: a sequence of items and a position in it; and what the
functions on any stream do to the items that are still to be read.
-/
import Verif.SeqStream.Model

namespace Verif.SeqStream

variable {α : Type}

/-- A sequence with a position. -/
structure Text (α : Type) where
  items : List α
  pos : Nat
  deriving DecidableEq

/-- Put `w` over the items from position `p` on; the sequence grows when `w` is longer. -/
def overwrite (l : List α) (p : Nat) (w : List α) : List α := l.take p ++ w ++ l.drop (p + w.length)

/-- The calls. -/
inductive Op (α : Type) where
  | readElement (sup : Bool)
  | peek (sup : Bool)
  | unread (a : α)
  | read (n : Nat) (sup : Bool)
  | atEnd
  | writeElement (a : α)
  | write (l : List α)
  | size
  | contents (clear : Bool)
  | position
  | setPosition (p : Int)
  | setStart
  | setEnd
  | adjustPosition (delta : Int) (from' : From)
  deriving DecidableEq

/-- Calls that need a readable stream. -/
def Op.reads : Op α → Bool
  | .readElement _ | .peek _ | .unread _ | .read _ _ => true
  | _ => false

/-- Calls that need a writable stream. -/
def Op.writes : Op α → Bool
  | .writeElement _ | .write _ => true
  | _ => false

/-- What a read of `n` items answers. -/
def readSpec (t : Text α) (n : Nat) (sup : Bool) : Ans α × Text α :=
  let rest := t.items.drop t.pos
  if n ≤ rest.length then (.elements (rest.take n), { t with pos := t.pos + n })
  else (if sup then .eosValue else if rest = [] then .endOfStream else .incomplete rest.length rest, { t with pos := t.items.length })

/-- Move to a position. -/
def moveSpec (t : Text α) (p : Int) : Ans α × Text α :=
  if 0 ≤ p ∧ p ≤ t.items.length then (.count p, { t with pos := p.toNat }) else (.positionError, t)

/-- What every call does when the stream has the right direction. -/
def callSpec (d : Dir) (t : Text α) : Op α → Ans α × Text α
  | .readElement sup =>
      (match t.items[t.pos]? with
       | some a => (.elt a, { t with pos := t.pos + 1 })
       | none => (eosAns sup, t))
  | .peek sup => (match t.items[t.pos]? with | some a => .elt a | none => eosAns sup, t)
  | .unread a => (.elt a, if t.pos = 0 then t else ⟨t.items.set (t.pos - 1) a, t.pos - 1⟩)
  | .read n sup => readSpec t n sup
  | .atEnd => (.bool (decide (d ≠ .output ∧ t.items.length ≤ t.pos)), t)
  | .writeElement a => (.done, ⟨overwrite t.items t.pos [a], t.pos + 1⟩)
  | .write l => (.done, ⟨overwrite t.items t.pos l, t.pos + l.length⟩)
  | .size => (.count t.items.length, t)
  | .contents clear => (.elements t.items, if clear then ⟨[], 0⟩ else t)
  | .position => (.count t.pos, t)
  | .setPosition p => moveSpec t p
  | .setStart => moveSpec t 0
  | .setEnd => moveSpec t t.items.length
  | .adjustPosition delta .current => moveSpec t (t.pos + delta)
  | .adjustPosition delta .start => moveSpec t delta
  | .adjustPosition delta .fin => moveSpec t (t.items.length + delta)

/-- What every call does. -/
def spec (d : Dir) (t : Text α) (op : Op α) : Ans α × Text α :=
  if d = .output ∧ op.reads then (.notReadable, t)
  else if d = .input ∧ op.writes then (.notWritable, t)
  else callSpec d t op

/-- What a history of calls answers, and the text after. -/
def specRun (d : Dir) : Text α → List (Op α) → List (Ans α) × Text α
  | t, [] => ([], t)
  | t, op :: ops =>
    let r := spec d t op
    let rs := specRun d r.2 ops
    (r.1 :: rs.1, rs.2)

/-- A call on the model. -/
def step [DecidableEq α] (s : St α) : Op α → Ans α × St α
  | .readElement sup => readElement s sup
  | .peek sup => peek s sup
  | .unread a => unread s a
  | .read n sup => read s n sup
  | .atEnd => (.bool (atEnd s), s)
  | .writeElement a => writeElement s a
  | .write l => write s l 0 none
  | .size => (.count (streamSize s), s)
  | .contents clear => contents s clear
  | .position => (.count (position s), s)
  | .setPosition p => setPosition s p
  | .setStart => setStart s
  | .setEnd => setEnd s
  | .adjustPosition delta from' => adjustPosition s delta from'

/-- A history of calls on the model. -/
def run [DecidableEq α] : St α → List (Op α) → List (Ans α) × St α
  | s, [] => ([], s)
  | s, op :: ops =>
    let r := step s op
    let rs := run r.2 ops
    (r.1 :: rs.1, rs.2)

/-- The part of a sequence a stream with `start:` and `end:` is on. -/
def part (l : List α) (start : Nat) (fin : Option Nat) : List α := (l.take (fin.getD l.length)).drop start

/-! ### Conditions under which the code is right

`start` is the value of `start:` and `limited` says whether `end:` was given.  The conditions are empty
for calls that only read, write and ask. -/

/-- The position a call moves to. -/
def target (t : Text α) : Op α → Option Int
  | .setPosition p => some p
  | .setStart => some 0
  | .setEnd => some t.items.length
  | .adjustPosition delta .current => some (t.pos + delta)
  | .adjustPosition delta .start => some delta
  | .adjustPosition delta .fin => some (t.items.length + delta)
  | _ => none

/-- The call counts from the end. -/
def Op.fromEnd : Op α → Bool
  | .setEnd => true
  | .adjustPosition _ .fin => true
  | _ => false

/-- The condition for one call: positions are within the sequence if no `end:` was given, and not below
    `start`; the end is asked for on streams with `end:` only; with `start:` or `end:` the contents are
    not cleared, and nothing is unread at the beginning. -/
def CallOk (start : Nat) (limited : Bool) (t : Text α) (op : Op α) : Prop :=
  (∀ p ∈ target t op, (p < 0 ∨ (start : Int) ≤ p) ∧ (limited = true ∨ p ≤ t.items.length)) ∧
  (op.fromEnd = true → limited = true ∧ (start = 0 ∨ op = .setEnd)) ∧
  (op = .contents true → start = 0 ∧ limited = false) ∧
  ((∃ a, op = .unread a) → start = 0 ∨ t.pos ≠ 0)

/-- The condition for a history. -/
def History (start : Nat) (limited : Bool) (d : Dir) : Text α → List (Op α) → Prop
  | _, [] => True
  | t, op :: ops => CallOk start limited t op ∧ History start limited d (spec d t op).2 ops

/-! ### Functions on any stream -/

/-- A source whose state stands for the items still to be read. -/
structure Faithful {σ : Type} (r : Src σ α) (holds : σ → List α → Prop) : Prop where
  atEnd : ∀ {s rest}, holds s rest → ∃ s', r.atEnd s = (rest.isEmpty, s') ∧ holds s' rest
  readElement : ∀ {s a rest}, holds s (a :: rest) → ∃ s', r.readElement s = (some a, s') ∧ holds s' rest
  peek : ∀ {s rest}, holds s rest → ∃ s', r.peek s = (rest.head?, s') ∧ holds s' rest

/-- The items before the first that passes the test. -/
def before (test : α → Bool) (l : List α) : List α := l.takeWhile (fun a => !test a)

/-- The items from the first that passes the test on. -/
def since (test : α → Bool) (l : List α) : List α := l.dropWhile (fun a => !test a)

/-- The first line: its items, whether a line end followed, and the rest.  A line ends with `nl`, with
    `rt`, or with `rt` and `nl`. -/
def firstLine [DecidableEq α] (nl rt : α) (l : List α) : List α × Bool × List α :=
  let line := before (fun a => a = nl ∨ a = rt) l
  match since (fun a => a = nl ∨ a = rt) l with
  | [] => (line, false, [])
  | e :: rest =>
    if e = nl then (line, true, rest)
    else
      match rest with
      | [] => (line, true, [])
      | f :: rest' => if f = nl then (line, true, rest') else (line, true, f :: rest')

/-- Put `w` over the items from position `p` on, with blanks in a gap before. -/
def patchGrow (blank : α) (l : List α) (p : Nat) (w : List α) : List α :=
  overwrite (l ++ List.replicate (p - l.length) blank) p w

/-- The next characters of a text, with every line end read as `nl`: `n` of them if there are, and the
    rest. -/
def nextText [DecidableEq α] (nl rt : α) : Nat → List α → List α × List α
  | 0, l => ([], l)
  | _ + 1, [] => ([], [])
  | n + 1, a :: l =>
    if a = rt then
      let r := nextText nl rt n (if l.head? = some nl then l.tail else l)
      (nl :: r.1, r.2)
    else
      let r := nextText nl rt n l
      (a :: r.1, r.2)

end Verif.SeqStream
