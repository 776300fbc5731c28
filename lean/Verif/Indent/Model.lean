/-
Indenting streams (sources/io/streams/indenting-streams.dylan): what is written to them and what they write to the stream
inside.
-/

namespace Verif.Indent

/-- An `<indenting-stream>` (46-53) and all that the stream inside has been given.  Integers are not bounded. -/
structure Stream where
  spaceColumn : Option Int
  indentation : Int
  inputTabWidth : Int
  outputTabWidth : Option Int
  inner : List Char
deriving DecidableEq, Repr

/-- A newly made stream. -/
def new (indentation inputTabWidth : Int) (outputTabWidth : Option Int) : Stream :=
  ⟨some 0, indentation, inputTabWidth, outputTabWidth, []⟩

/-- `write(inner, elements, start:, end:)` of a stream that takes everything; `none` is the error for bounds that are not
within the elements. -/
def innerWrite (s : Stream) (elements : List Char) (start : Int) (stop : Int) : Option Stream :=
  if 0 ≤ start ∧ start ≤ stop ∧ stop ≤ elements.length then
    some { s with inner := s.inner ++ (elements.take stop.toNat).drop start.toNat }
  else none

/-- `write-element(inner, elt)`. -/
def innerElement (s : Stream) (c : Char) : Stream := { s with inner := s.inner ++ [c] }

/-- `$spaces` (59-60). -/
def spaces : List Char := List.replicate 64 ' '

/-- `$tabs` (61-62). -/
def tabs : List Char := List.replicate 32 '\t'

/-- `write-spaces` (70-77). -/
def writeSpaces (s : Stream) (count : Int) : Option Stream :=
  if count > 64 then (innerWrite s spaces 0 64).bind (fun s => writeSpaces s (count - 64))
  else innerWrite s spaces 0 count
termination_by count.toNat
decreasing_by omega

/-- `write-tabs` (78-85). -/
def writeTabs (s : Stream) (count : Int) : Option Stream :=
  if count > 32 then (innerWrite s tabs 0 32).bind (fun s => writeTabs s (count - 32))
  else innerWrite s tabs 0 count
termination_by count.toNat
decreasing_by omega

/-- `write-indent` (64-95). -/
def writeIndent (s : Stream) (count : Int) : Option Stream :=
  match s.outputTabWidth with
  | some w =>
    if count ≥ w then
      if w = 0 then none
      else (writeTabs s (count.tdiv w)).bind (fun s => writeSpaces s (count.tmod w))
    else writeSpaces s count
  | none => writeSpaces s count

/-- `write-indent` if there is a column. -/
def indentAt (s : Stream) : Option Int → Option Stream
  | some k => writeIndent s (s.indentation + k)
  | none => some s

/-- The column after a tab (109-113, 150-151). -/
def afterTab (w k : Int) : Option Int := if w = 0 then none else some (k + w - k.tmod w)

/-- `write-element` (97-127). -/
def writeElement (s : Stream) (c : Char) : Option Stream :=
  if c = ' ' then
    match s.spaceColumn with
    | some k => some { s with spaceColumn := some (k + 1) }
    | none => some (innerElement s c)
  else if c = '\t' then
    match s.spaceColumn with
    | some k => (afterTab s.inputTabWidth k).map (fun k => { s with spaceColumn := some k })
    | none => some (innerElement s c)
  else if c = '\n' ∨ c = '\r' then some (innerElement { s with spaceColumn := some 0 } c)
  else (indentAt s s.spaceColumn).map (fun s => innerElement { s with spaceColumn := none } c)

/-- The loop of `write` (136-170).  The first number is that of the elements left. -/
def writeLoop (elements : List Char) : Nat → Int → Int → Option Int → Stream → Option Stream
  | 0, index, start, column, s =>
    (if start ≠ index then innerWrite s elements start index else some s).map
      (fun s => { s with spaceColumn := column })
  | n + 1, index, start, column, s =>
    if index < 0 then none
    else
      match elements[index.toNat]? with
      | none => none
      | some c =>
        if c = ' ' then
          match column with
          | some k => writeLoop elements n (index + 1) (index + 1) (some (k + 1)) s
          | none => writeLoop elements n (index + 1) start none s
        else if c = '\t' then
          match column with
          | some k =>
            (afterTab s.inputTabWidth k).bind (fun k => writeLoop elements n (index + 1) (index + 1) (some k) s)
          | none => writeLoop elements n (index + 1) start none s
        else if c = '\n' ∨ c = '\r' then
          (innerWrite s elements start (index + 1)).bind
            (fun s => writeLoop elements n (index + 1) (index + 1) (some 0) s)
        else (indentAt s column).bind (fun s => writeLoop elements n (index + 1) start none s)

/-- `write` (129-171). -/
def write (s : Stream) (elements : List Char) (start stop : Int) : Option Stream :=
  writeLoop elements (stop - start).toNat start start s.spaceColumn s

/-- `new-line` (178-181) of a stream whose newline sequence is one newline
(sources/io/streams/convenience.dylan 112-123). -/
def newLine (s : Stream) : Stream := innerElement { s with spaceColumn := some 0 } '\n'

/-- `indent` (193-196). -/
def indent (s : Stream) (delta : Int) : Stream := { s with indentation := s.indentation + delta }

/-- What is done with a stream. -/
inductive Op where
  | writeElement (c : Char)
  | write (elements : List Char) (start stop : Int)
  | newLine
  | indent (delta : Int)

def step (s : Stream) : Op → Option Stream
  | .writeElement c => Indent.writeElement s c
  | .write es a b => Indent.write s es a b
  | .newLine => some (Indent.newLine s)
  | .indent d => some (Indent.indent s d)

/-- One call after the other; `none` if one signals an error. -/
def run (s : Stream) : List Op → Option Stream
  | [] => some s
  | o :: os => (step s o).bind (fun s => run s os)

end Verif.Indent
