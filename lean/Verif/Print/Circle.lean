import Verif.Print.Structure

/-
`print(object, stream, circle?: #t)` of the io library with `pretty?: #f`: sources/io/print.dylan. Objects live in a
heap, so that they may be shared and may contain themselves. Other objects than lists and vectors write a text and
print no further objects.
-/

namespace Verif.Print

/-- What an object is; its parts are given by their addresses. -/
inductive Node where
  | leaf (text : List Char)
  | empty
  | pair (head tail : Nat)
  | vector (items : List Nat)

/-- Objects by address: two addresses are `==` if they are equal. Equal integers have the same address, and so does
    the empty list. -/
abbrev Heap := Nat → Node

/-- What is written: a text, `#n#=` in front of an object, or `#n#` for an object. The address in the last two is not
    written: it says which object the program means. -/
inductive Tok where
  | text (t : List Char)
  | tag (n : Nat) (object : Nat)
  | ref (n : Nat) (object : Nat)
deriving DecidableEq

/-- The slots of `<circular-print-stream>`, print.dylan:72-88, with the table of `<print-reference>`s, lines 112-124:
    an object without an entry has count 0 and no id. -/
structure PS where
  first : Bool
  count : Nat → Nat
  id : Nat → Option Nat
  next : Nat
  out : List Tok

/-- `write`, print.dylan:1137-1143: nothing is written in the first pass. -/
def PS.write (s : PS) (t : Tok) : PS := if s.first then s else { s with out := s.out ++ [t] }

def PS.text (s : PS) (t : String) : PS := s.write (.text t.toList)

/-- `print-reference-count` is set, print.dylan:281 and 311. -/
def PS.counted (s : PS) (x c : Nat) : PS := { s with count := fun y => if y = x then c else s.count y }

/-- `new-print-reference-id`, print.dylan:159-165, between `#` and `#=`, lines 334-337 and 625-628. -/
def PS.tagged (s : PS) (x : Nat) : PS :=
  { s with id := fun y => if y = x then some s.next else s.id y, next := s.next + 1 }.write (.tag s.next x)

/-- What is to be printed. -/
inductive Task where
  /-- `maybe-print-object`. -/
  | maybe (x : Nat)
  /-- `print-object`. -/
  | object (x : Nat)
  /-- A round of the loop of `print-list` with the remaining list and the count, and those that follow. -/
  | rest (count : Nat) (x : Nat)
  /-- A round of the loop of `print-items`, and those that follow. -/
  | items (count : Nat) (xs : List Nat)

/-- The printing functions on a `<circular-print-stream>`: `maybe-print-object` with `output-print-reference`,
    print.dylan:297-344; `print-object` of lists and vectors, lines 560-644 and 652-657, within `pprint-logical-block`,
    lines 1237-1271, which in the first pass does nothing; `print-items`, lines 788-805. The depth is that of the
    caller. `none`: the rounds did not suffice. -/
def go (H : Heap) (l : Limits) : Nat → Task → Int → PS → Option PS
  | 0, _, _, _ => none
  | fuel + 1, .maybe x, depth, s =>
    if l.tooDeep (depth + 1) then some (s.text "#")
    else if s.first then
      if s.count x + 1 = 1 then go H l fuel (.object x) (depth + 1) (s.counted x (s.count x + 1))
      else some (s.counted x (s.count x + 1))
    else if s.count x = 1 then go H l fuel (.object x) (depth + 1) s
    else
      match s.id x with
      | none => go H l fuel (.object x) (depth + 1) (s.tagged x)
      | some n => some (s.write (.ref n x))
  | fuel + 1, .object x, depth, s =>
    match H x with
    | .leaf t => some (s.write (.text t))
    | .empty => if s.first then some s else some ((s.text "#(").text ")")
    | .pair h t =>
      if s.first then some s
      else if l.reached 0 then some (((s.text "#(").text "...").text ")")
      else
        match go H l fuel (.maybe h) depth (s.text "#(") with
        | none => none
        | some s =>
          match go H l fuel (.rest 1 t) depth s with
          | none => none
          | some s => some (s.text ")")
    | .vector xs =>
      if s.first then some s
      else
        match go H l fuel (.items 0 xs) depth (s.text "#[") with
        | none => none
        | some s => some (s.text "]")
  | fuel + 1, .rest count x, depth, s =>
    match H x with
    | .empty => some s
    | .leaf _ => go H l fuel (.maybe x) depth (s.text " . ")
    | .vector _ => go H l fuel (.maybe x) depth (s.text " . ")
    | .pair h t =>
      if l.reached count then some ((s.text ", ").text "...")
      else if s.first then
        if s.count x + 1 = 1 then
          match go H l fuel (.maybe h) depth (s.counted x (s.count x + 1)) with
          | none => none
          | some s => go H l fuel (.rest (count + 1) t) depth s
        else some (s.counted x (s.count x + 1))
      else if s.count x = 1 then
        match go H l fuel (.maybe h) depth (s.text ", ") with
        | none => none
        | some s => go H l fuel (.rest (count + 1) t) depth s
      else
        match s.id x with
        | none =>
          match go H l fuel (.maybe x) depth (((s.text ", ").text ". ").tagged x) with
          | none => none
          | some s => go H l fuel (.rest (count + 1) t) depth s
        | some n => some (((s.text ", ").text ". ").write (.ref n x))
  | _ + 1, .items _ [], _, s => some s
  | fuel + 1, .items count (x :: xs), depth, s =>
    let s := if count = 0 then s else s.text ", "
    if l.equal count then some (s.text "...")
    else
      match go H l fuel (.maybe x) depth s with
      | none => none
      | some s => go H l fuel (.items (count + 1) xs) depth s

/-- A stream made for the call, print.dylan:72-88 and 218-222. -/
def PS.new : PS := { first := true, count := fun _ => 0, id := fun _ => none, next := 0, out := [] }

/-- `print` with `circle?: #t`, print.dylan:203-235, and `start-circle-printing`, lines 273-289. -/
def printCircle (H : Heap) (l : Limits) (fuel : Nat) (x : Nat) : Option PS :=
  match go H l fuel (.object x) (-1) (PS.new.counted x 1) with
  | none => none
  | some s => go H l fuel (.maybe x) (-1) { s with first := false }

/-- The characters of what is written; ids are written by `integer-to-string`, print.dylan:164. -/
def Tok.chars : Tok → List Char
  | .text t => t
  | .tag n _ => ['#'] ++ (toString n).toList ++ ['#', '=']
  | .ref n _ => ['#'] ++ (toString n).toList ++ ['#']

/-- The text that is written. -/
def written (out : List Tok) : List Char := out.flatMap Tok.chars

/-- Printing comes to an end, and has then written these things. -/
def CirclePrints (H : Heap) (l : Limits) (x : Nat) (out : List Tok) : Prop :=
  ∃ fuel s, printCircle H l fuel x = some s ∧ s.out = out

end Verif.Print
