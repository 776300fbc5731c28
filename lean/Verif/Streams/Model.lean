/-
Model of file streams: /repo/sources/io/streams/file-stream.dylan,
/repo/sources/io/streams/buffered-stream.dylan, /repo/sources/io/streams/buffer.dylan and the file
accessor of POSIX systems, /repo/sources/io/unix-file-accessor.dylan.

A stream has one buffer (`stream-shared-buffer`); `stream-input-buffer` and `stream-output-buffer`
are either this buffer or `#f`, so two Booleans say whether they are set.  The accessor returns the
buffer it was given, so there never is a second buffer.

Simplifications: integers are unbounded; the file is regular (`read` delivers all the bytes asked for
up to the end of the file), is not changed by others and no system call fails; the elements of the
stream are bytes (the copies of the methods for characters, `file-stream.dylan:60-64`, have the same
text); a signalled error ends the call.
-/
import Mathlib.Data.Nat.Bitwise

namespace Verif.Streams

/-- A byte. -/
abbrev Byte := Nat

/-- The direction of a stream. -/
inductive Dir where
  | input
  | output
  | inputOutput
  deriving DecidableEq

/-- How a call fails: an access outside the buffer (by `read(2)`, which does not check, or by
    `buffer-ref`, which asks for no check), a failed `assert`, a stream with neither an input nor an
    output buffer, a `<stream-position-error>`, `ensure-readable`, `ensure-writable`, or a loop that
    does not end in the number of rounds the model gives it. -/
inductive Fail where
  | outside
  | assertion
  | noBuffer
  | position
  | notReadable
  | notWritable
  | rounds
  deriving DecidableEq

/-- How a call ends. -/
inductive Res (α : Type) where
  | ok (a : α)
  | fail (f : Fail)
  deriving DecidableEq

/-- Go on after a result. -/
def Res.bind {α β : Type} : Res α → (α → Res β) → Res β
  | .ok a, f => f a
  | .fail e, _ => .fail e

/-- `<buffer>` (`native-buffer.dylan:21-40`). -/
structure Buf where
  data : List Byte
  pos : Nat
  start : Nat
  next : Nat
  fin : Nat
  dirty : Bool
  deriving DecidableEq

/-- `<native-file-accessor>` (`unix-file-accessor.dylan:13-24`) together with the file.  The position
    of the file descriptor is always `file-position` (`accessor-size` restores it, lines 94-106). -/
structure Acc where
  file : List Byte
  pos : Nat
  atEnd : Bool
  deriving DecidableEq

/-- A file stream.  `nul` is `$null-buffer` (`file-stream.dylan:534-535`), which all streams share. -/
structure St where
  dir : Dir
  buf : Buf
  inp : Bool
  out : Bool
  acc : Acc
  nul : Buf
  deriving DecidableEq

/-- The size of the buffer (`buffer-size`, `native-buffer.dylan:53-56`). -/
def Buf.size (b : Buf) : Nat := b.data.length

/-- The bytes from index `i` on replaced by `w`. -/
def patch (l : List Byte) (i : Nat) (w : List Byte) : List Byte :=
  l.take i ++ w ++ l.drop (i + w.length)

/-- `buffer-fill(buffer, 0, start: i)` (`native-buffer.dylan:239-245`). -/
def fillZero (l : List Byte) (i : Nat) : List Byte :=
  l.take i ++ List.replicate (l.length - i) 0

/-! ### The file accessor -/

/-- `read(2)` on a regular file. -/
def posixRead (file : List Byte) (p n : Nat) : List Byte := (file.drop p).take n

/-- `write(2)` on a regular file: a gap before the position is filled with zeros. -/
def posixWrite (file : List Byte) (p : Nat) (w : List Byte) : List Byte :=
  file.take p ++ List.replicate (p - file.length) 0 ++ w ++ file.drop (p + w.length)

/-- `accessor-position-setter` (`unix-file-accessor.dylan:114-134`). -/
def accSeek (a : Acc) (p : Nat) : Acc :=
  if p ≠ a.pos then { a with pos := p, atEnd := false } else a

/-- `accessor-read-into!` (`unix-file-accessor.dylan:136-156`): the bytes read and the accessor after. -/
def accRead (a : Acc) (count : Nat) : List Byte × Acc :=
  if a.atEnd then ([], a)
  else
    let bs := posixRead a.file a.pos count
    if bs = [] then ([], { a with atEnd := true })
    else (bs, { a with pos := a.pos + bs.length })

/-- `accessor-write-from` (`unix-file-accessor.dylan:158-178`). -/
def accWrite (a : Acc) (w : List Byte) : Acc :=
  { a with file := posixWrite a.file a.pos w, pos := a.pos + w.length }

/-! ### Buffers -/

/-- `load-buffer` (`file-stream.dylan:221-233`).  The read puts its bytes at `start` without a check. -/
def loadBuffer (s : St) (desired start count : Nat) : Res (Nat × St) :=
  let a := accSeek s.acc desired
  let r := accRead a count
  if start + r.1.length > s.buf.size then .fail .outside
  else .ok (r.1.length, { s with
    acc := r.2, buf := { s.buf with data := patch s.buf.data start r.1, fin := start + r.1.length } })

/-- `load-buffer-and-fill` (`file-stream.dylan:235-242`). -/
def loadBufferAndFill (s : St) (desired start count : Nat) : Res St :=
  (loadBuffer s desired start count).bind fun r =>
    .ok { r.2 with buf := { r.2.buf with data := fillZero r.2.buf.data r.2.buf.fin } }

/-- `force-buffer` (`file-stream.dylan:413-440`) of the buffer `b`: the buffer and the accessor after.
    `accessor-write-from` always writes all the bytes, so there is no "Bad write count". -/
def forceBuffer (dir : Dir) (b : Buf) (a : Acc) : Buf × Acc :=
  if b.dirty then
    let count := b.fin - b.start
    let a := accSeek a (b.pos + b.start)
    if count > 0 then
      let a := accWrite a ((b.data.drop b.start).take count)
      let b := if dir = .output then { b with start := b.start + count } else b
      ({ b with dirty := false }, a)
    else ({ b with dirty := false }, a)
  else (b, a)

/-- `force-buffer` of the buffer of the stream. -/
def force (s : St) : St :=
  let r := forceBuffer s.dir s.buf s.acc
  { s with buf := r.1, acc := r.2 }

/-- `force-buffer` of `$null-buffer`, set up to write a zero at position `p`. -/
def forceNull (s : St) (p : Nat) : St :=
  let r := forceBuffer s.dir { s.nul with pos := p, dirty := true } s.acc
  { s with nul := r.1, acc := r.2 }

/-- `do-next-input-buffer` (`file-stream.dylan:299-336`); `false` is `#f`, the end of the file. -/
def doNextInput (s : St) : Res (Bool × St) :=
  let nextPos := s.buf.pos + s.buf.fin
  let s := force s
  (loadBuffer s nextPos 0 s.buf.size).bind fun r =>
    let s := { r.2 with buf := { r.2.buf with pos := nextPos, dirty := false, fin := r.1, start := 0, next := 0 } }
    .ok (decide (r.1 > 0), s)

/-- `do-get-input-buffer` (`file-stream.dylan:256-289`).  The number of bytes to load is
    `current-buffer.buffer-end - start` with `start = current-buffer.buffer-end`. -/
def doGetInput (s : St) : Res (Bool × St) :=
  if s.dir = .output then .fail .notReadable
  else if s.out then
    let s := { s with inp := true, out := false }
    if s.buf.next ≥ s.buf.fin then
      if ¬ s.buf.fin < s.buf.size then .fail .assertion
      else
        let start := s.buf.fin
        let count := s.buf.fin - start
        (loadBuffer s (s.buf.pos + s.buf.fin) start count).bind fun r =>
          if r.2.buf.next ≥ r.2.buf.fin then .ok (false, force r.2) else .ok (true, r.2)
    else .ok (true, s)
  else .fail .noBuffer

/-- `get-input-buffer` (`buffered-stream.dylan:86-100`). -/
def getInput (s : St) : Res (Bool × St) :=
  if s.inp then (if s.buf.next ≥ s.buf.fin then doNextInput s else .ok (true, s))
  else doGetInput s

/-- `do-get-output-buffer` (`file-stream.dylan:346-360`). -/
def doGetOutput (s : St) : Res St :=
  if s.dir = .input then .fail .notWritable
  else if s.inp then
    .ok { s with buf := { s.buf with data := fillZero s.buf.data s.buf.fin }, inp := false, out := true }
  else .fail .noBuffer

/-- `do-next-output-buffer` (`file-stream.dylan:368-387`). -/
def doNextOutput (s : St) : Res St :=
  if s.buf.fin ≠ s.buf.size then .fail .assertion
  else
    let nextPos := s.buf.pos + s.buf.fin
    let s := force s
    .ok { s with buf := { data := fillZero s.buf.data 0, pos := nextPos, dirty := false, start := 0, next := 0, fin := 0 } }

/-- `get-output-buffer` (`buffered-stream.dylan:169-182`). -/
def getOutput (s : St) : Res St :=
  if s.out then (if s.buf.next ≥ s.buf.size then doNextOutput s else .ok s)
  else doGetOutput s

/-! ### Reading -/

/-- `read-element` (`buffered-stream.dylan:388-402`); `none` is the end of the stream. -/
def readElement (s : St) : Res (Option Byte × St) :=
  (getInput s).bind fun r =>
    if r.1 then .ok (r.2.buf.data[r.2.buf.next]?, { r.2 with buf := { r.2.buf with next := r.2.buf.next + 1 } })
    else .ok (none, r.2)

/-- `peek` (`buffered-stream.dylan:404-415`). -/
def peek (s : St) : Res (Option Byte × St) :=
  (getInput s).bind fun r =>
    if r.1 then .ok (r.2.buf.data[r.2.buf.next]?, r.2) else .ok (none, r.2)

/-- The loop of `read-into!` (`buffered-stream.dylan:437-465`): `n` more bytes to read, after `got`.
    The answer is the bytes read. -/
def readLoop : Nat → Nat → List Byte → Bool → St → Res (List Byte × St)
  | 0, _, _, _, _ => .fail .rounds
  | k + 1, n, got, sb, s =>
    if 0 < n then
      if sb then
        if s.buf.next ≥ s.buf.fin then (doNextInput s).bind fun r => readLoop k n got r.1 r.2
        else
          let count := min (s.buf.fin - s.buf.next) n
          readLoop k (n - count) (got ++ (s.buf.data.drop s.buf.next).take count) sb
            { s with buf := { s.buf with next := s.buf.next + count } }
      else .ok (got, s)
    else .ok (got, s)

/-- `read-into!` (`buffered-stream.dylan:430-467`): the bytes stored.  When they are fewer than `n`
    the call signals `<incomplete-read-error>` or returns `on-end-of-stream`. -/
def readInto (s : St) (n : Nat) : Res (List Byte × St) :=
  (getInput s).bind fun r => readLoop (2 * n + 2) n [] r.1 r.2

/-- The argument `on-end-of-stream` of `read`: not supplied, some object that is not an integer, or
    an integer. -/
inductive Eos where
  | unsupplied
  | object
  | int (k : Int)
  deriving DecidableEq

/-- What `read` answers: the elements, the value of `on-end-of-stream`, or `<incomplete-read-error>`
    with the elements read. -/
inductive ReadAns where
  | elements (l : List Byte)
  | eos (e : Eos)
  | incomplete (l : List Byte)
  deriving DecidableEq

/-- `read` (`buffered-stream.dylan:417-428`) after `read-into!` stored `l`: the result of `read-into!`
    is the count or `on-end-of-stream`, and is compared with `on-end-of-stream`. -/
def readAnswer (n : Nat) (e : Eos) (l : List Byte) : ReadAns :=
  if l.length < n then
    (match e with
     | .unsupplied => .incomplete l
     | e => .eos e)
  else if e = .int l.length then .eos e else .elements l

/-- `read` (`buffered-stream.dylan:417-428`). -/
def read (s : St) (n : Nat) (e : Eos) : Res (ReadAns × St) :=
  (readInto s n).bind fun r => .ok (readAnswer n e r.1, r.2)

/-- The loop of `read-skip` (`buffered-stream.dylan:676-690`). -/
def skipLoop : Nat → Nat → Bool → St → Res St
  | 0, _, _, _ => .fail .rounds
  | k + 1, n, sb, s =>
    if 0 < n then
      if sb then
        if s.buf.next ≥ s.buf.fin then (doNextInput s).bind fun r => skipLoop k n r.1 r.2
        else
          let count := min (s.buf.fin - s.buf.next) n
          skipLoop k (n - count) sb { s with buf := { s.buf with next := s.buf.next + count } }
      else .ok s
    else .ok s

/-- `read-skip` (`buffered-stream.dylan:671-693`). -/
def readSkip (s : St) (n : Nat) : Res St :=
  if 0 < n then (getInput s).bind fun r => skipLoop (2 * n + 2) n r.1 r.2 else .ok s

/-- The test for the end of a line, `elt == nl | elt == rt` (`buffered-stream.dylan:551`). -/
def isEol (b : Byte) : Bool := b == 10 || b == 13

/-- The end of the loop of `read-line` when the element at `next - 1` is `'\r'`: the `'\n'` after it,
    possibly in the next buffer, is eaten (`buffered-stream.dylan:555-570`). -/
def eatNewline (s : St) : Res St :=
  if s.buf.next ≥ s.buf.fin then
    (doNextInput s).bind fun r =>
      if r.1 ∧ r.2.buf.data[r.2.buf.next]? = some 10 then
        .ok { r.2 with buf := { r.2.buf with next := r.2.buf.next + 1 } }
      else .ok r.2
  else if s.buf.data[s.buf.next]? = some 10 then
    .ok { s with buf := { s.buf with next := s.buf.next + 1 } }
  else .ok s

/-- The loop of `read-line` (`buffered-stream.dylan:539-580`).  `line` is the line so far, `none` for
    `#f`.  The inner loop looks for the first newline or return in the buffer. -/
def lineLoop : Nat → Option (List Byte) → Bool → St → Res ((Option (List Byte) × Bool) × St)
  | 0, _, _, _ => .fail .rounds
  | k + 1, line, sb, s =>
    if sb then
      if s.buf.next ≥ s.buf.fin then (doNextInput s).bind fun r => lineLoop k line r.1 r.2
      else
        let chunk := (s.buf.data.drop s.buf.next).take (s.buf.fin - s.buf.next)
        let before := chunk.takeWhile (fun b => !isEol b)
        let line' := line.getD [] ++ before
        if before.length < chunk.length then
          let s' := { s with buf := { s.buf with next := s.buf.next + before.length + 1 } }
          if chunk[before.length]? = some 13 then
            (eatNewline s').bind fun s'' => .ok ((some line', true), s'')
          else .ok ((some line', true), s')
        else lineLoop k (some line') sb { s with buf := { s.buf with next := s.buf.fin } }
    else .ok ((line, false), s)

/-- `read-line` (`buffered-stream.dylan:508-588`): the line (`none` at the end of the stream) and
    whether it ended in a newline.  The number of rounds is enough for the whole file. -/
def readLine (s : St) : Res ((Option (List Byte) × Bool) × St) :=
  (getInput s).bind fun r => lineLoop (2 * (r.2.acc.file.length + r.2.buf.fin) + 4) none r.1 r.2

/-- `stream-at-end?` (`file-stream.dylan:166-172`). -/
def atEnd (s : St) : Res (Bool × St) :=
  if s.dir = .output then .ok (false, s)
  else (getInput s).bind fun r => .ok (!r.1, r.2)

/-! ### Writing -/

/-- `write-element` (`buffered-stream.dylan:700-709`).  The store is not checked. -/
def writeElement (s : St) (b : Byte) : Res St :=
  (getOutput s).bind fun s =>
    if s.buf.next < s.buf.size then
      .ok { s with buf := { s.buf with
        data := patch s.buf.data s.buf.next [b],
        next := s.buf.next + 1, fin := max (s.buf.next + 1) s.buf.fin, dirty := true } }
    else .fail .outside

/-- The loop of `write` (`buffered-stream.dylan:716-737`); those of `write-line` (745-765) and
    `write-fill` (779-797) do the same. -/
def writeLoop : Nat → List Byte → St → Res St
  | 0, _, _ => .fail .rounds
  | k + 1, bs, s =>
    if 0 < bs.length then
      if s.buf.next ≥ s.buf.size then (doNextOutput s).bind fun s => writeLoop k bs s
      else
        let count := min (s.buf.size - s.buf.next) bs.length
        writeLoop k (bs.drop count) { s with buf := { s.buf with
          data := patch s.buf.data s.buf.next (bs.take count),
          next := s.buf.next + count, fin := max (s.buf.next + count) s.buf.fin, dirty := true } }
    else .ok s

/-- `write` (`buffered-stream.dylan:711-738`). -/
def write (s : St) (bs : List Byte) : Res St :=
  (getOutput s).bind fun s => writeLoop (2 * bs.length + 2) bs s

/-- `write-line` (`buffered-stream.dylan:740-770`); the newline sequence is "\n"
    (`unix-file-accessor.dylan:187-191`). -/
def writeLine (s : St) (bs : List Byte) : Res St :=
  (getOutput s).bind fun s =>
    (writeLoop (2 * bs.length + 2) bs s).bind fun s => writeLoop 4 [10] s

/-- `write-fill` (`buffered-stream.dylan:774-799`). -/
def writeFill (s : St) (b : Byte) (n : Nat) : Res St :=
  (getOutput s).bind fun s => writeLoop (2 * n + 2) (List.replicate n b) s

/-- `force-output` (`external-stream.dylan:78-86`, `buffered-stream.dylan:482-487`,
    `file-stream.dylan:392-407`). -/
def forceOutput (s : St) : Res St :=
  if s.dir = .input then .ok s
  else (getOutput s).bind fun s => .ok (force s)

/-- The file after `close` (`file-stream.dylan:204-216`, `external-stream.dylan:46-73`). -/
def close (s : St) : Res (List Byte) := (forceOutput s).bind fun s => .ok s.acc.file

/-! ### Positions -/

/-- `stream-size` (`file-stream.dylan:185-202`). -/
def streamSize (s : St) : Nat :=
  if s.buf.dirty then max (s.buf.pos + s.buf.fin) s.acc.file.length else s.acc.file.length

/-- `stream-position` (`file-stream.dylan:444-462`). -/
def streamPosition (s : St) : Nat := s.buf.pos + s.buf.next

/-- `logand(buffer-on-page-bits, position)` (`buffer.dylan:79`). -/
def onPage (s : St) (p : Nat) : Nat := p &&& (s.buf.size - 1)

/-- `logand(buffer-off-page-bits, position)`, with `off-page-bits = lognot(on-page-bits)`
    (`buffer.dylan:80`). -/
def offPage (s : St) (p : Nat) : Nat := Nat.ldiff p (s.buf.size - 1)

/-- `adjust-stream-position-from-start` for an input stream (`file-stream.dylan:543-575`). -/
def seekInput (s : St) (p size : Nat) : Res St :=
  if p > size then .fail .position
  else if s.inp ∧ offPage s p = s.buf.pos ∧ s.buf.start ≤ onPage s p ∧ onPage s p ≤ s.buf.fin then
    .ok { s with buf := { s.buf with next := onPage s p } }
  else
    .ok { s with inp := true, buf := { s.buf with
      fin := onPage s p, pos := offPage s p, start := onPage s p, next := onPage s p } }

/-- The end of the branch for positions past the end of the file (`file-stream.dylan:633-650`). -/
def seekPastEnd (s : St) (p : Nat) : St :=
  let s' := { s with buf := { s.buf with next := onPage s p, fin := onPage s p, dirty := true } }
  if s'.inp then { s' with inp := false, out := true } else s'

/-- The end of the method for an input-output stream (`file-stream.dylan:687-695`). -/
def setOutput (s : St) : St := if s.inp then s else { s with out := true }

/-- A position past the end of the file of an input-output stream (`file-stream.dylan:589-650`). -/
def seekIOPast (s : St) (p size : Nat) : Res St :=
  if offPage s p = s.buf.pos then
    if s.buf.pos + s.buf.fin < size then
      (loadBufferAndFill s (s.buf.pos + s.buf.fin) s.buf.fin (size - (s.buf.pos + s.buf.fin))).bind
        fun s => .ok (seekPastEnd s p)
    else .ok (seekPastEnd s p)
  else
    let s := force s
    (if offPage s p < size then loadBufferAndFill s (offPage s p) 0 s.buf.size
     else .ok { s with buf := { s.buf with data := fillZero s.buf.data 0 } }).bind fun s =>
      let s := { s with buf := { s.buf with start := 0, pos := offPage s p } }
      let s := if onPage s p = 0 then forceNull s (p - 1) else s
      .ok (seekPastEnd s p)

/-- Another position in the buffer of an input-output stream: the missing part of the buffer is
    loaded, `min(buffer-size, size - end)` bytes at most (`file-stream.dylan:651-671`). -/
def seekIOSame (s : St) (p size : Nat) : Res St :=
  (if s.buf.fin < s.buf.size then
    (if s.buf.pos + s.buf.fin < size then
      (loadBuffer s (s.buf.pos + s.buf.fin) s.buf.fin
        (min s.buf.size (size - (s.buf.pos + s.buf.fin)))).bind fun r => .ok r.2
     else .ok s).bind fun s =>
      .ok { s with buf := { s.buf with data := fillZero s.buf.data s.buf.fin } }
   else .ok s).bind fun s => .ok { s with buf := { s.buf with next := onPage s p } }

/-- A position in another buffer of an input-output stream (`file-stream.dylan:672-686`). -/
def seekIOOther (s : St) (p : Nat) : Res St :=
  let s := force s
  (loadBufferAndFill s (offPage s p) 0 s.buf.size).bind fun s =>
    .ok { s with buf := { s.buf with pos := offPage s p, start := 0, next := onPage s p, dirty := false } }

/-- `adjust-stream-position-from-start` for an input-output stream (`file-stream.dylan:576-695`). -/
def seekIO (s : St) (p size : Nat) : Res St :=
  (if p > size then seekIOPast s p size
   else if offPage s p = s.buf.pos then seekIOSame s p size
   else seekIOOther s p).bind fun s => .ok (setOutput s)

/-- `adjust-stream-position-from-start` for an output stream (`file-stream.dylan:696-750`). -/
def seekOutput (s : St) (p size : Nat) : Res St :=
  if offPage s p = s.buf.pos ∧ s.buf.start ≤ onPage s p ∧ onPage s p ≤ s.buf.fin then
    .ok { s with out := true, buf := { s.buf with next := onPage s p } }
  else
    let s := force s
    let s := { s with buf := { s.buf with pos := offPage s p, next := onPage s p, fin := onPage s p } }
    if p > size then
      if onPage s p = 0 then
        let s := forceNull s (p - 1)
        .ok { s with out := true, buf := { s.buf with start := onPage s p } }
      else
        .ok { s with out := true, buf := { s.buf with
          data := patch s.buf.data (onPage s p - 1) [0], start := onPage s p - 1, dirty := true } }
    else .ok { s with out := true, buf := { s.buf with start := onPage s p } }

/-- `adjust-stream-position-from-start` (`file-stream.dylan:537-755`). -/
def seekFromStart (s : St) (p size : Nat) : Res St :=
  match s.dir with
  | .input => seekInput s p size
  | .inputOutput => seekIO s p size
  | .output => seekOutput s p size

/-- `stream-position-setter` (`file-stream.dylan:464-483`). -/
def setPosition (s : St) (p : Int) : Res St :=
  if 0 ≤ p ∧ p ≤ streamSize s then seekFromStart s p.toNat (streamSize s) else .fail .position

/-- `writable-file-stream-position-setter` (`file-stream.dylan:488-500`). -/
def setWritablePosition (s : St) (p : Int) : Res St :=
  if 0 ≤ p then seekFromStart s p.toNat (streamSize s) else .fail .position

/-- The argument `from:` of `adjust-stream-position`. -/
inductive From where
  | current
  | start
  | fin
  deriving DecidableEq

/-- `adjust-stream-position` (`file-stream.dylan:502-531`): the new position. -/
def adjustPosition (s : St) (delta : Int) (from' : From) : Res (Nat × St) :=
  let p : Int := match from' with
    | .current => streamPosition s + delta
    | .start => delta
    | .fin => streamSize s + delta
  if p < 0 ∨ (s.dir = .output ∧ p > streamSize s) then .fail .position
  else (seekFromStart s p.toNat (streamSize s)).bind fun s => .ok (p.toNat, s)

/-- `unread-element` (`file-stream.dylan:759-764`). -/
def unreadElement (s : St) : Res St := (adjustPosition s (-1) .current).bind fun r => .ok r.2

/-- `read-to-end` (`file-stream.dylan:766-783`). -/
def readToEnd (s : St) : Res (ReadAns × St) :=
  read s (streamSize s - streamPosition s) .unsupplied

/-- `stream-contents` (`file-stream.dylan:785-812`); an output stream has none. -/
def streamContents (s : St) : Res (ReadAns × St) :=
  if s.dir = .output then .fail .notReadable
  else
    let original := streamPosition s
    (forceOutput s).bind fun s =>
      (setPosition s 0).bind fun s =>
        (read s (streamSize s) .unsupplied).bind fun r =>
          (setPosition r.2 original).bind fun s => .ok (r.1, s)

/-! ### Opening -/

/-- `round-to-power-of-two` (`buffer.dylan:85-106`): the loop shifts one number right and the other
    left until the first is zero. -/
def roundLoop : Nat → Nat → Nat → Nat
  | 0, _, acc => acc
  | k + 1, n, acc => if n = 0 then acc else roundLoop k (n >>> 1) (acc <<< 1)

/-- `round-to-power-of-two` (`buffer.dylan:85-106`); `none` is the error for 0. -/
def roundToPowerOfTwo (n : Nat) : Option Nat :=
  if n = 0 then none else if n > 2 then some (roundLoop n (n - 1) 1) else some 2

/-- A new buffer (`buffer.dylan:65-83`); the fill is `'\0'`. -/
def newBuf (size : Nat) : Buf := ⟨List.replicate size 0, 0, 0, 0, 0, false⟩

/-- `$null-buffer` (`file-stream.dylan:534-535`). -/
def nullBuf : Buf := ⟨[0], 0, 0, 0, 1, false⟩

/-- `initialize` of a file stream (`file-stream.dylan:68-104`) with a buffer of `size` bytes, on a file
    opened with the accessor at position `p` (0, or the end of the file for `if-exists: #"append"`,
    `system/file-system/unix-file-accessor.dylan:82-85`). -/
def openStream (dir : Dir) (size : Nat) (file : List Byte) (p : Nat) (nul : Buf) : Res St :=
  setPosition ⟨dir, newBuf size, false, false, ⟨file, p, false⟩, nul⟩ p

end Verif.Streams
