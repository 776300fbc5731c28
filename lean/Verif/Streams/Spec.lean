/-
What a file stream is for its user: the bytes of a file and a position in them.  Buffers do not occur
here, except in the conditions at the end of the file, under which the code is right.
-/
import Verif.Streams.Model

namespace Verif.Streams

/-- A file as its user sees it. -/
structure FileS where
  bytes : List Byte
  pos : Nat
  deriving DecidableEq

/-- What a call answers. -/
inductive Ans where
  | done
  | byte (b : Option Byte)
  | bytes (l : List Byte)
  | incomplete (l : List Byte)
  | line (l : Option (List Byte)) (newline : Bool)
  | number (n : Nat)
  | bool (b : Bool)
  | positionError
  | notReadable
  | notWritable
  | crash
  deriving DecidableEq

/-- The calls. -/
inductive Op where
  | readElement
  | peek
  | read (n : Nat)
  | readSkip (n : Nat)
  | readLine
  | atEnd
  | readToEnd
  | contents
  | writeElement (b : Byte)
  | write (l : List Byte)
  | writeLine (l : List Byte)
  | writeFill (b : Byte) (n : Nat)
  | forceOutput
  | setPosition (p : Int)
  | adjustPosition (delta : Int) (from' : From)
  | unread
  | position
  | size
  deriving DecidableEq

/-- Put `w` over the bytes from position `p` on; the sequence grows when `w` is longer. -/
def overwrite (l : List Byte) (p : Nat) (w : List Byte) : List Byte :=
  l.take p ++ w ++ l.drop (p + w.length)

/-- The first line of `l`: its bytes up to a newline, a return or both, whether there was one, and how
    many bytes of `l` the line takes. -/
def firstLine : List Byte → List Byte × Bool × Nat
  | [] => ([], false, 0)
  | 10 :: _ => ([], true, 1)
  | 13 :: 10 :: _ => ([], true, 2)
  | 13 :: _ => ([], true, 1)
  | b :: l => let r := firstLine l; (b :: r.1, r.2.1, r.2.2 + 1)

/-- What a read answers that should deliver `n` bytes. -/
def readSpec (f : FileS) (n : Nat) : Ans × FileS :=
  let got := (f.bytes.drop f.pos).take n
  (if got.length = n then .bytes got else .incomplete got, { f with pos := f.pos + got.length })

/-- Put the bytes at the position and move it. -/
def writeSpec (f : FileS) (w : List Byte) : Ans × FileS :=
  (.done, ⟨overwrite f.bytes f.pos w, f.pos + w.length⟩)

/-- Move to a position in the file.  An input-output stream may be moved past the end, which adds
    zeros to the file. -/
def moveSpec (d : Dir) (f : FileS) (p : Int) (answer : Nat → Ans) : Ans × FileS :=
  if p < 0 then (.positionError, f)
  else if p ≤ f.bytes.length then (answer p.toNat, { f with pos := p.toNat })
  else if d = .inputOutput then
    (answer p.toNat, ⟨f.bytes ++ List.replicate (p.toNat - f.bytes.length) 0, p.toNat⟩)
  else (.positionError, f)

/-- What `read-line` answers. -/
def lineSpec (f : FileS) : Ans × FileS :=
  let rest := f.bytes.drop f.pos
  let r := firstLine rest
  if rest = [] then (.line none false, f) else (.line (some r.1) r.2.1, { f with pos := f.pos + r.2.2 })

/-- Calls that need a readable stream. -/
def Op.reads : Op → Bool
  | .readElement | .peek | .read _ | .readLine | .readToEnd | .contents => true
  | .readSkip n => decide (0 < n)
  | _ => false

/-- Calls that need a writable stream. -/
def Op.writes : Op → Bool
  | .writeElement _ | .write _ | .writeLine _ | .writeFill _ _ => true
  | _ => false

/-- What every call does to a file when the stream has the right direction. -/
def callSpec (d : Dir) (f : FileS) : Op → Ans × FileS
  | .readElement =>
      (.byte f.bytes[f.pos]?, if f.pos < f.bytes.length then { f with pos := f.pos + 1 } else f)
  | .peek => (.byte f.bytes[f.pos]?, f)
  | .read n => readSpec f n
  | .readSkip n => (.done, { f with pos := f.pos + ((f.bytes.drop f.pos).take n).length })
  | .readLine => lineSpec f
  | .atEnd => (.bool (decide (d ≠ .output ∧ f.bytes.length ≤ f.pos)), f)
  | .readToEnd => (.bytes (f.bytes.drop f.pos), { f with pos := max f.pos f.bytes.length })
  | .contents => (.bytes f.bytes, f)
  | .writeElement b => writeSpec f [b]
  | .write l => writeSpec f l
  | .writeLine l => writeSpec f (l ++ [10])
  | .writeFill b n => writeSpec f (List.replicate n b)
  | .forceOutput => (.done, f)
  | .setPosition p => if p ≤ f.bytes.length then moveSpec d f p (fun _ => .done) else (.positionError, f)
  | .adjustPosition delta .current => moveSpec d f (f.pos + delta) .number
  | .adjustPosition delta .start => moveSpec d f delta .number
  | .adjustPosition delta .fin => moveSpec d f (f.bytes.length + delta) .number
  | .unread => moveSpec d f (f.pos - 1) (fun _ => .done)
  | .position => (.number f.pos, f)
  | .size => (.number f.bytes.length, f)

/-- What every call does. -/
def spec (d : Dir) (f : FileS) (op : Op) : Ans × FileS :=
  if d = .output ∧ op.reads then (.notReadable, f)
  else if d = .input ∧ op.writes then (.notWritable, f)
  else callSpec d f op

/-- What a history of calls answers, and the file after. -/
def specRun (d : Dir) : FileS → List Op → List Ans × FileS
  | f, [] => ([], f)
  | f, op :: ops =>
    let r := spec d f op
    let rs := specRun d r.2 ops
    (r.1 :: rs.1, rs.2)

/-! ### Histories of the model -/

/-- The answer for an error. -/
def failAns : Fail → Ans
  | .position => .positionError
  | .notReadable => .notReadable
  | .notWritable => .notWritable
  | _ => .crash

/-- The answer of a call that has one. -/
def finish {α : Type} (s : St) (r : Res (α × St)) (f : α → Ans) : Ans × St :=
  match r with
  | .ok (a, s') => (f a, s')
  | .fail e => (failAns e, s)

/-- The answer of a call without a value. -/
def finish' (s : St) (r : Res St) : Ans × St :=
  match r with
  | .ok s' => (.done, s')
  | .fail e => (failAns e, s)

/-- The answer of `read`. -/
def ofRead : ReadAns → Ans
  | .elements l => .bytes l
  | .incomplete l => .incomplete l
  | .eos _ => .crash

/-- A call on the model. -/
def step (s : St) : Op → Ans × St
  | .readElement => finish s (readElement s) .byte
  | .peek => finish s (peek s) .byte
  | .read n => finish s (read s n .unsupplied) ofRead
  | .readSkip n => finish' s (readSkip s n)
  | .readLine => finish s (readLine s) (fun r => .line r.1 r.2)
  | .atEnd => finish s (atEnd s) .bool
  | .readToEnd => finish s (readToEnd s) ofRead
  | .contents => finish s (streamContents s) ofRead
  | .writeElement b => finish' s (writeElement s b)
  | .write l => finish' s (write s l)
  | .writeLine l => finish' s (writeLine s l)
  | .writeFill b n => finish' s (writeFill s b n)
  | .forceOutput => finish' s (forceOutput s)
  | .setPosition p => finish' s (setPosition s p)
  | .adjustPosition delta from' => finish s (adjustPosition s delta from') .number
  | .unread => finish' s (unreadElement s)
  | .position => (.number (streamPosition s), s)
  | .size => (.number (streamSize s), s)

/-- A history of calls on the model. -/
def run : St → List Op → List Ans × St
  | s, [] => ([], s)
  | s, op :: ops =>
    let r := step s op
    let rs := run r.2 ops
    (r.1 :: rs.1, rs.2)

/-! ### Conditions under which the code is right

For an output stream: no write comes after a `force-output` that was called behind the end of what had
been written, unless the position is set in between. -/

/-- What the condition for output streams remembers: bytes were written since the last `force-output`;
    the position was set after that; `force-output` was called in such a state, not at the end. -/
structure OutNote where
  pending : Bool
  back : Bool
  stale : Bool
  deriving DecidableEq

/-- The calls that set the position. -/
def Op.moves : Op → Bool
  | .setPosition _ | .adjustPosition _ _ | .unread => true
  | _ => false

/-- The condition for one call on an output stream. -/
def OutOk (n : OutNote) (op : Op) : Prop := n.stale = true → op.writes = false

/-- The note after a call on an output stream. -/
def outNote (n : OutNote) (f : FileS) (op : Op) : OutNote :=
  if op.writes then { n with pending := true }
  else if op.moves then
    (if (spec .output f op).1 = .positionError then n
     else { n with back := n.back || n.pending, stale := false })
  else if op = .forceOutput then ⟨false, false, n.stale || (n.back && decide (f.pos ≠ f.bytes.length))⟩
  else n

/-- The condition for a history of an output stream. -/
def OutHistory : OutNote → FileS → List Op → Prop
  | _, _, [] => True
  | n, f, op :: ops => OutOk n op ∧ OutHistory (outNote n f op) (spec .output f op).2 ops

/-! For an input-output stream with a buffer of `B` bytes: the position is set between a write (or a
`force-output`) and a read; it is set between a read and a `write-element`; it is not set past the end
of the file; and it is not set in the page it is in after a write that came into that page from
another, when that page is not the last one. -/

/-- The kind of the last call that matters. -/
inductive Last where
  | move
  | read
  | write
  deriving DecidableEq

/-- What the condition for input-output streams remembers: the last call, and whether the last write
    came from another page into the present one, which is not the last. -/
structure IONote where
  last : Last
  gap : Bool
  deriving DecidableEq

/-- The calls that read from an input-output stream, or ask whether there is something to read. -/
def Op.readsIO (op : Op) : Bool := (op.reads || op = .atEnd) && (op ≠ .contents)

/-- The position a call moves to, when it is one. -/
def target (f : FileS) : Op → Int
  | .setPosition p => p
  | .adjustPosition delta .current => f.pos + delta
  | .adjustPosition delta .start => delta
  | .adjustPosition delta .fin => f.bytes.length + delta
  | .unread => f.pos - 1
  | _ => 0

/-- The condition for one call on an input-output stream. -/
def IOOk (B : Nat) (n : IONote) (f : FileS) (op : Op) : Prop :=
  (op.readsIO = true → n.last ≠ .write) ∧
  ((∃ b, op = .writeElement b) → n.last ≠ .read) ∧
  (op.moves = true → target f op ≤ f.bytes.length) ∧
  ((op.moves = true ∨ op = .contents) → n.gap = true → (target f op).toNat / B ≠ f.pos / B)

/-- The note after a call on an input-output stream. -/
def ioNote (B : Nat) (n : IONote) (f : FileS) (op : Op) : IONote :=
  if op.readsIO then { n with last := .read }
  else if op.writes then
    let f' := (spec .inputOutput f op).2
    if f'.pos = f.pos then { n with last := .write }
    else
      let crossed := decide (f.pos / B ≠ (f'.pos - 1) / B) || (decide (f.pos % B = 0) && decide (n.last ≠ .move))
      ⟨.write, (n.gap || crossed) && decide (((f'.pos - 1) / B + 1) * B < f'.bytes.length)⟩
  else if op.moves then
    (if (spec .inputOutput f op).1 = .positionError then n else ⟨.move, false⟩)
  else if op = .contents then ⟨.move, false⟩
  else if op = .forceOutput then { n with last := .write }
  else n

/-- The condition for a history of an input-output stream. -/
def IOHistory (B : Nat) : IONote → FileS → List Op → Prop
  | _, _, [] => True
  | n, f, op :: ops => IOOk B n f op ∧ IOHistory B (ioNote B n f op) (spec .inputOutput f op).2 ops

end Verif.Streams
