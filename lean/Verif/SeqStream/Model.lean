/-
Model of streams over sequences and of the functions that work on any stream:
/repo/sources/io/streams/sequence-stream.dylan, the positions of /repo/sources/io/streams/stream.dylan
and /repo/sources/io/streams/convenience.dylan.

Simplifications: integers are unbounded; the sequence of a stream is used by this stream only; the
stream is open.  A call answers a value or a signalled error, and leaves the stream as the code has
left it when it returned or signalled.
-/

namespace Verif.SeqStream

/-- The direction of a stream. -/
inductive Dir where
  | input
  | output
  | inputOutput
  deriving DecidableEq

/-- `<sequence-stream>` (`sequence-stream.dylan:11-18`, `stream.dylan:173-178`).  `stretchy` says
    whether the sequence is a `<stretchy-vector>`; `fill` is the element `make` puts into a new
    sequence. -/
structure St (α : Type) where
  seq : List α
  initial : Int
  current : Int
  final : Int
  limit : Option Int
  dir : Dir
  stretchy : Bool
  fill : α
  deriving DecidableEq

/-- What a call answers: a value, the value of `on-end-of-stream`, or an error. -/
inductive Ans (α : Type) where
  | done
  | elt (a : α)
  | elements (l : List α)
  | found (l : List α) (b : Bool)
  | count (n : Int)
  | bool (b : Bool)
  | eosValue
  | endOfStream
  | incomplete (n : Int) (l : List α)
  | notReadable
  | notWritable
  | bounds
  | positionError
  | noLimit
  | rounds
  deriving DecidableEq

variable {α : Type}

/-- `readable?` (`stream.dylan:100-103`). -/
def St.readable (s : St α) : Bool := s.dir ≠ .output

/-- `writable?` (`stream.dylan:105-108`). -/
def St.writable (s : St α) : Bool := s.dir ≠ .input

/-- `stream-limit(stream) | stream.final-position`. -/
def St.lim (s : St α) : Int := s.limit.getD s.final

/-- `seq[i]`, with its range check. -/
def at? (l : List α) (i : Int) : Option α := if 0 ≤ i then l[i.toNat]? else none

/-- `copy-sequence(seq, start: i, end: j)`, with its range check. -/
def slice? (l : List α) (i j : Int) : Option (List α) :=
  if 0 ≤ i ∧ i ≤ j ∧ j ≤ l.length then some ((l.drop i.toNat).take (j - i).toNat) else none

/-- `end-of-stream-value` (`defs.dylan:37-43`); `sup` says whether `on-end-of-stream` was supplied. -/
def eosAns (sup : Bool) : Ans α := if sup then .eosValue else .endOfStream

/-- `initialize` (`sequence-stream.dylan:87-100`). -/
def open' (dir : Dir) (contents : List α) (start : Int) (fin : Option Int) (stretchy : Bool) (fill : α) : St α :=
  ⟨contents, start, start, if dir = .output then start else contents.length, fin, dir, stretchy, fill⟩

/-! ### Reading -/

/-- `read-element` (`sequence-stream.dylan:134-149`). -/
def readElement (s : St α) (sup : Bool) : Ans α × St α :=
  if s.readable = false then (.notReadable, s)
  else if s.current < s.lim then
    (match at? s.seq s.current with
     | some a => (.elt a, { s with current := s.current + 1 })
     | none => (.bounds, s))
  else (eosAns sup, s)

/-- `unread-element` (`sequence-stream.dylan:151-165`). -/
def unread [DecidableEq α] (s : St α) (a : α) : Ans α × St α :=
  if s.readable = false then (.notReadable, s)
  else if s.current > 0 then
    let s' := { s with current := s.current - 1 }
    (match at? s.seq (s.current - 1) with
     | some b => if b ≠ a then (.elt a, { s' with seq := s.seq.set (s.current - 1).toNat a }) else (.elt a, s')
     | none => (.bounds, s'))
  else (.elt a, s)

/-- `peek` (`sequence-stream.dylan:167-180`). -/
def peek (s : St α) (sup : Bool) : Ans α × St α :=
  if s.readable = false then (.notReadable, s)
  else if s.current < s.lim then
    (match at? s.seq s.current with
     | some a => (.elt a, s)
     | none => (.bounds, s))
  else (eosAns sup, s)

/-- `read` (`sequence-stream.dylan:182-209`). -/
def read (s : St α) (n : Int) (sup : Bool) : Ans α × St α :=
  if s.readable = false then (.notReadable, s)
  else
    let srcN := s.lim - s.current
    if n > srcN then
      let s' := { s with current := s.current + srcN }
      if sup then (.eosValue, s')
      else if srcN = 0 then (.endOfStream, s')
      else
        (match slice? s.seq s.current (s.current + srcN) with
         | some l => (.incomplete srcN l, s')
         | none => (.bounds, s'))
    else
      (match slice? s.seq s.current (s.current + n) with
       | some l => (.elements l, { s with current := s.current + n })
       | none => (.bounds, s))

/-- The loop of `read-into!` (`sequence-stream.dylan:232-234`): elements `i` to `m - 1`. -/
def intoLoop (seq : List α) (pos start : Int) : Nat → Int → List α → Option (List α)
  | 0, _, dst => some dst
  | k + 1, i, dst =>
    match at? seq (i + pos) with
    | some a => if 0 ≤ i + start ∧ i + start < dst.length then intoLoop seq pos start k (i + 1) (dst.set (i + start).toNat a) else none
    | none => none

/-- `read-into!` (`sequence-stream.dylan:211-237`): the answer, the destination and the stream after. -/
def readInto (s : St α) (n : Int) (dst : List α) (start : Int) (sup : Bool) : Ans α × List α × St α :=
  if s.readable = false then (.notReadable, dst, s)
  else
    let srcN := s.lim - s.current
    let dstN := (dst.length : Int) - start
    let nRead := min n (min srcN dstN)
    let s' := { s with current := s.current + nRead }
    if n > nRead then
      if sup then (.eosValue, dst, s')
      else
        (match slice? dst start (start + nRead) with
         | some l => (.incomplete nRead l, dst, s')
         | none => (.bounds, dst, s'))
    else
      (match intoLoop s.seq s.current start nRead.toNat 0 dst with
       | some dst' => (.count nRead, dst', s')
       | none => (.bounds, dst, s'))

/-- `stream-at-end?` (`sequence-stream.dylan:307-315`). -/
def atEnd (s : St α) : Bool :=
  if s.dir = .output then false
  else
    let limit := if s.dir = .input then s.limit else none
    decide (s.current ≥ limit.getD s.final)

/-! ### Writing -/

/-- `grow-for-stream` (`sequence-stream.dylan:288-302`). -/
def grow (s : St α) (minSize : Int) : List α :=
  if s.stretchy then
    s.seq.take minSize.toNat ++ List.replicate (minSize.toNat - s.seq.length) s.fill
  else
    let m := max minSize.toNat (2 * s.seq.length)
    s.seq ++ List.replicate (m - s.seq.length) s.fill

/-- The loops that grow the sequence (`sequence-stream.dylan:254-258`, `276-279`). -/
def growLoop : Nat → St α → Int → Option (St α)
  | 0, _, _ => none
  | k + 1, s, required =>
    if (s.seq.length : Int) < required then growLoop k { s with seq := grow s required } required else some s

/-- `write-element` (`sequence-stream.dylan:248-266`). -/
def writeElement (s : St α) (a : α) : Ans α × St α :=
  if s.writable = false then (.notWritable, s)
  else
    match growLoop 2 s (s.current + 1) with
    | none => (.rounds, s)
    | some s =>
      if 0 ≤ s.current then
        let s' := { s with seq := s.seq.set s.current.toNat a, current := s.current + 1 }
        (.done, if s.current ≥ s.final then { s' with final := s.current + 1 } else s')
      else (.bounds, s)

/-- `copy-bytes` (`common-dylan/byte-vector.dylan:55-62`): elements from `i` of `src` to `j` of `dst`. -/
def copyLoop (src : List α) : Nat → Int → Int → List α → Option (List α)
  | 0, _, _, dst => some dst
  | k + 1, i, j, dst =>
    match at? src i with
    | some a => if 0 ≤ j ∧ j < dst.length then copyLoop src k (i + 1) (j + 1) (dst.set j.toNat a) else none
    | none => none

/-- `write` (`sequence-stream.dylan:268-286`). -/
def write (s : St α) (src : List α) (start : Int) (fin : Option Int) : Ans α × St α :=
  if s.writable = false then (.notWritable, s)
  else
    let count := fin.getD src.length - start
    match growLoop 2 s (s.current + count) with
    | none => (.rounds, s)
    | some s =>
      match copyLoop src count.toNat start s.current s.seq with
      | none => (.bounds, s)
      | some seq =>
        let newPos := s.current + count
        let s' := { s with seq := seq, current := newPos }
        (.done, if newPos > s.final then { s' with final := newPos } else s')

/-! ### Size, contents and positions -/

/-- `stream-size` (`sequence-stream.dylan:317-321`). -/
def streamSize (s : St α) : Int := s.lim - s.initial

/-- `clear-contents` (`sequence-stream.dylan:323-326`). -/
def clearContents (s : St α) : St α := { s with current := 0, final := s.limit.getD 0 }

/-- `stream-contents` and `stream-contents-as` (`sequence-stream.dylan:328-347`). -/
def contents (s : St α) (clear : Bool) : Ans α × St α :=
  let n := s.lim - s.initial
  if n < 0 then (.bounds, s)
  else
    match copyLoop s.seq n.toNat s.initial 0 (List.replicate n.toNat s.fill) with
    | none => (.bounds, s)
    | some result => (.elements result, if clear then clearContents s else s)

/-- `stream-position` (`stream.dylan:218-221`). -/
def position (s : St α) : Int := s.current - s.initial

/-- `stream-position-setter` for an integer (`stream.dylan:223-236`). -/
def setPosition (s : St α) (p : Int) : Ans α × St α :=
  let limit := if s.dir = .input then s.limit else none
  let new := p + s.initial
  if p < s.initial ∨ (∃ l ∈ limit, new > l) then (.positionError, s)
  else (.count p, { s with current := new })

/-- The places a position is counted from; also the symbols `stream-position-setter` accepts. -/
inductive From where
  | current
  | start
  | fin
  deriving DecidableEq

/-- `stream-position(stream) := #"start"` and `#"end"` (`stream.dylan:238-249`). -/
def setStart (s : St α) : Ans α × St α := setPosition s 0

/-- See `setStart`. -/
def setEnd (s : St α) : Ans α × St α :=
  match s.limit with
  | some l => setPosition s (l - s.initial)
  | none => (.noLimit, s)

/-- `adjust-stream-position` (`stream.dylan:251-261`). -/
def adjustPosition (s : St α) (delta : Int) : From → Ans α × St α
  | .current => setPosition s (position s + delta)
  | .start => setPosition s delta
  | .fin =>
    match s.limit with
    | some l => setPosition s (l + delta)
    | none => (.noLimit, s)

/-! ### Functions on any stream

They use `stream-at-end?`, `read-element` and `peek` only.  `Src` is a stream with these three. -/

/-- A stream for reading: the three calls the functions below make.  `read-element` is called without
    `on-end-of-stream`, so that it may signal an error (`none`); `peek` is called with
    `on-end-of-stream: #f`, so that it answers an element or `#f` (`none`). -/
structure Src (σ α : Type) where
  atEnd : σ → Bool × σ
  readElement : σ → Option α × σ
  peek : σ → Option α × σ

variable {σ : Type}

/-- The loop of `read-to` (`convenience.dylan:38-48`).  The `found?` value and the elements.  After a
    match `stream-at-end?` is called once more, as in the other loops below. -/
def readToLoop (r : Src σ α) (test : α → Bool) : Nat → List α → σ → Ans α × σ
  | 0, _, s => (.rounds, s)
  | k + 1, got, s =>
    let e := r.atEnd s
    if e.1 then (.found got false, e.2)
    else
      match r.readElement e.2 with
      | (none, s) => (.endOfStream, s)
      | (some a, s) => if test a then (.found got true, (r.atEnd s).2) else readToLoop r test k (got ++ [a]) s

/-- `read-to` (`convenience.dylan:29-50`); `k` bounds the number of rounds. -/
def readTo (r : Src σ α) (test : α → Bool) (sup : Bool) (k : Nat) (s : σ) : Ans α × σ :=
  let e := r.atEnd s
  if e.1 then (eosAns sup, e.2) else readToLoop r test k [] e.2

/-- The loop of `read-through` (`convenience.dylan:61-70`). -/
def readThroughLoop (r : Src σ α) (test : α → Bool) : Nat → List α → σ → Ans α × σ
  | 0, _, s => (.rounds, s)
  | k + 1, got, s =>
    let e := r.atEnd s
    if e.1 then (.found got false, e.2)
    else
      match r.readElement e.2 with
      | (none, s) => (.endOfStream, s)
      | (some a, s) => if test a then (.found (got ++ [a]) true, (r.atEnd s).2) else readThroughLoop r test k (got ++ [a]) s

/-- `read-through` (`convenience.dylan:52-72`). -/
def readThrough (r : Src σ α) (test : α → Bool) (sup : Bool) (k : Nat) (s : σ) : Ans α × σ :=
  let e := r.atEnd s
  if e.1 then (eosAns sup, e.2) else readThroughLoop r test k [] e.2

/-- `read-to-end` (`convenience.dylan:74-82`). -/
def readToEnd (r : Src σ α) : Nat → List α → σ → Ans α × σ
  | 0, _, s => (.rounds, s)
  | k + 1, got, s =>
    let e := r.atEnd s
    if e.1 then (.elements got, e.2)
    else
      match r.readElement e.2 with
      | (none, s) => (.endOfStream, s)
      | (some a, s) => readToEnd r k (got ++ [a]) s

/-- `skip-through` (`convenience.dylan:84-92`). -/
def skipThrough (r : Src σ α) (test : α → Bool) : Nat → σ → Ans α × σ
  | 0, s => (.rounds, s)
  | k + 1, s =>
    let e := r.atEnd s
    if e.1 then (.bool false, e.2)
    else
      match r.readElement e.2 with
      | (none, s) => (.endOfStream, s)
      | (some a, s) => if test a then (.bool true, (r.atEnd s).2) else skipThrough r test k s

/-- `'\r'` was read: if `'\n'` follows, eat it (`convenience.dylan:143-146`). -/
def eatNewline [DecidableEq α] (r : Src σ α) (nl : α) (s : σ) : Option Unit × σ :=
  let p := r.peek s
  if p.1 = some nl then
    (match r.readElement p.2 with
     | (none, s) => (none, s)
     | (some _, s) => (some (), s))
  else (some (), p.2)

/-- The loop of `read-line` (`convenience.dylan:136-151`); `nl` and `rt` are the two characters. -/
def lineLoop [DecidableEq α] (r : Src σ α) (nl rt : α) : Nat → List α → σ → Ans α × σ
  | 0, _, s => (.rounds, s)
  | k + 1, got, s =>
    let e := r.atEnd s
    if e.1 then (.found got false, e.2)
    else
      match r.readElement e.2 with
      | (none, s) => (.endOfStream, s)
      | (some a, s) =>
        if a = nl then (.found got true, (r.atEnd s).2)
        else if a = rt then
          (match eatNewline r nl s with
           | (none, s) => (.endOfStream, s)
           | (some _, s) => (.found got true, (r.atEnd s).2))
        else lineLoop r nl rt k (got ++ [a]) s

/-- `read-line` (`convenience.dylan:127-154`). -/
def readLine [DecidableEq α] (r : Src σ α) (nl rt : α) (sup : Bool) (k : Nat) (s : σ) : Ans α × σ :=
  let e := r.atEnd s
  if e.1 then (eosAns sup, e.2) else lineLoop r nl rt k [] e.2

/-- `add-with-overflow` (`convenience.dylan:160-175`): the string, the index and the overflow. -/
structure Into (α : Type) where
  str : List α
  index : Int
  overflow : Option (List α)

/-- See `Into`.  `none` is the range error of `string[index] := elt`. -/
def Into.add (blank : α) (growing : Bool) (start : Int) (t : Into α) (a : α) : Option (Into α) :=
  if growing ∧ t.index ≥ t.str.length then
    some { t with overflow := some ((t.overflow.getD (List.replicate (start - t.str.length).toNat blank)) ++ [a]) }
  else if 0 ≤ t.index ∧ t.index < t.str.length then
    some { t with str := t.str.set t.index.toNat a, index := t.index + 1 }
  else none

/-- The loop of `read-line-into!` (`convenience.dylan:180-196`). -/
def lineIntoLoop [DecidableEq α] (r : Src σ α) (nl rt blank : α) (growing : Bool) (start : Int) : Nat → Into α → σ → Ans α × σ
  | 0, _, s => (.rounds, s)
  | k + 1, t, s =>
    let e := r.atEnd s
    if e.1 then (.found (t.str ++ t.overflow.getD []) false, e.2)
    else
      match r.readElement e.2 with
      | (none, s) => (.endOfStream, s)
      | (some a, s) =>
        if a = nl then (.found (t.str ++ t.overflow.getD []) true, (r.atEnd s).2)
        else if a = rt then
          (match eatNewline r nl s with
           | (none, s) => (.endOfStream, s)
           | (some _, s) => (.found (t.str ++ t.overflow.getD []) true, (r.atEnd s).2))
        else
          match t.add blank growing start a with
          | none => (.bounds, s)
          | some t => lineIntoLoop r nl rt blank growing start k t s

/-- `read-line-into!` (`convenience.dylan:156-202`): the string returned. -/
def readLineInto [DecidableEq α] (r : Src σ α) (nl rt blank : α) (str : List α) (start : Int) (growing sup : Bool) (k : Nat) (s : σ) :
    Ans α × σ :=
  let e := r.atEnd s
  if e.1 then (eosAns sup, e.2) else lineIntoLoop r nl rt blank growing start k ⟨str, start, none⟩ e.2

/-- The loop of `read-text-into!` (`convenience.dylan:271-291`), `n` more characters to store from
    `index` on. -/
def textLoop [DecidableEq α] (r : Src σ α) (nl rt : α) (sup : Bool) : Nat → Int → List α → σ → Option (Ans α) × List α × σ
  | 0, _, text, s => (none, text, s)
  | n + 1, index, text, s =>
    let e := r.atEnd s
    if e.1 then (some (eosAns sup), text, e.2)
    else
      match r.readElement e.2 with
      | (none, s) => (some .endOfStream, text, s)
      | (some a, s) =>
        if a = rt then
          (match eatNewline r nl s with
           | (none, s) => (some .endOfStream, text, s)
           | (some _, s) =>
             if 0 ≤ index ∧ index < text.length then textLoop r nl rt sup n (index + 1) (text.set index.toNat nl) s
             else (some .bounds, text, s))
        else if 0 ≤ index ∧ index < text.length then textLoop r nl rt sup n (index + 1) (text.set index.toNat a) s
        else (some .bounds, text, s)

/-- `read-text-into!` (`convenience.dylan:266-292`): the answer, the text and the stream after. -/
def readTextInto [DecidableEq α] (r : Src σ α) (nl rt : α) (n : Nat) (text : List α) (start : Int) (sup : Bool) (s : σ) :
    Ans α × List α × σ :=
  match textLoop r nl rt sup n start text s with
  | (some a, text, s) => (a, text, s)
  | (none, text, s) => (.count n, text, s)

/-- A sequence stream as a source. -/
def source : Src (St α) α where
  atEnd s := (atEnd s, s)
  readElement s := (match readElement s false with | (.elt a, s) => (some a, s) | (_, s) => (none, s))
  peek s := (match peek s true with | (.elt a, s) => (some a, s) | (_, s) => (none, s))

end Verif.SeqStream
