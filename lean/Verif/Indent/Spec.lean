import Verif.Indent.Model

/-
What an indenting stream should write, line by line: the white space a line begins with is measured, the indentation is
added, and that many columns are filled; lines of white space only are left empty.
-/

namespace Verif.Indent.Spec

/-- A character written, with the indentation the stream had at that time. -/
abbrev Written := Char × Int

/-- What the calls write, with the indentation at each character; `none` if the bounds of a call are wrong. -/
def text (indentation : Int) : List Op → Option (List Written)
  | [] => some []
  | .writeElement c :: os => (text indentation os).map (fun t => (c, indentation) :: t)
  | .write es a b :: os =>
    if b ≤ a then text indentation os
    else if 0 ≤ a ∧ b ≤ es.length then
      (text indentation os).map (fun t => ((es.take b.toNat).drop a.toNat).map (fun c => (c, indentation)) ++ t)
    else none
  | .newLine :: os => (text indentation os).map (fun t => ('\n', indentation) :: t)
  | .indent d :: os => text (indentation + d) os

def isBlank (c : Written) : Bool := c.1 == ' ' || c.1 == '\t'
def isEnd (c : Written) : Bool := c.1 == '\n' || c.1 == '\r'

/-- The lines of a text, each with its end if it has one. -/
def lines : List Written → List (List Written)
  | [] => []
  | c :: cs =>
    if isEnd c then [c] :: lines cs
    else
      match lines cs with
      | [] => [[c]]
      | l :: ls => (c :: l) :: ls

/-- The column reached from a column: a space takes one column, a tab reaches the next multiple of the tab width. -/
def column (w : Int) : Int → List Char → Int
  | k, [] => k
  | k, c :: cs => column w (if c = '\t' then (k / w + 1) * w else k + 1) cs

/-- White space of that many columns: with tabs as far as they go, if they are wanted. -/
def pad (w : Option Int) (n : Int) : List Char :=
  match w with
  | none => List.replicate n.toNat ' '
  | some w => List.replicate (n / w).toNat '\t' ++ List.replicate (n % w).toNat ' '

/-- What a line becomes, `k` columns of it having been seen; `none` if it would begin left of the margin. -/
def lineFrom (inW : Int) (outW : Option Int) (k : Int) (l : List Written) : Option (List Char) :=
  match l.dropWhile isBlank with
  | [] => some []
  | c :: cs =>
    if isEnd c then some ((c :: cs).map Prod.fst)
    else
      let n := c.2 + column inW k ((l.takeWhile isBlank).map Prod.fst)
      if n < 0 then none else some (pad outW n ++ (c :: cs).map Prod.fst)

/-- All lines, one after the other. -/
def allLines (inW : Int) (outW : Option Int) : List (List Written) → Option (List Char)
  | [] => some []
  | l :: ls => (lineFrom inW outW 0 l).bind (fun a => (allLines inW outW ls).map (fun b => a ++ b))

/-- What the stream inside is given for the calls. -/
def output (indentation inW : Int) (outW : Option Int) (ops : List Op) : Option (List Char) :=
  (text indentation ops).bind (fun t => allLines inW outW (lines t))

end Verif.Indent.Spec
