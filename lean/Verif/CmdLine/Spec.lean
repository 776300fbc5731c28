import Verif.CmdLine.Model

/-!
# Command lines and a shell
-/

namespace Verif.CmdLine

/-- A command line: white space, and arguments in some coding with white space after them. -/
def assemble (coding : List Char → List Char) (lead : List Char) (args : List (List Char × List Char)) : List Char :=
  lead ++ args.flatMap fun x => coding x.1 ++ x.2

/-- There is white space between two arguments. -/
def SepOk : List (List Char × List Char) → Prop
  | [] => True
  | x :: l => (∀ c ∈ x.2, c = ' ' ∨ c = '\t' ∨ c = '\n') ∧ (l ≠ [] → x.2 ≠ []) ∧ SepOk l

/-- How a shell reads. -/
inductive Mode where
  | plain
  | escaped
  | double
  | doubleEscaped
  | single
  deriving DecidableEq

/-- What the Shell Command Language (section 2.2 and the token recognition of 2.3) makes of the rest of a simple command: its
words.  The word that was begun, if one was, is given.  `none`: a quotation is not closed, or there is an operator, the end of the
command, an expansion or a comment. -/
def shell : Mode → Option (List Char) → List Char → Option (List (List Char))
  | .plain, word, [] => some word.toList
  | _, _, [] => none
  | .plain, word, c :: r =>
    if c = ' ' ∨ c = '\t' then (shell .plain none r).map (word.toList ++ ·)
    else if c = '"' then shell .double (some (word.getD [])) r
    else if c = '\'' then shell .single (some (word.getD [])) r
    else if c = '\\' then shell .escaped word r
    else if c ∈ ['|', '&', ';', '<', '>', '(', ')', '\n', '$', '`', '*', '?', '['] then none
    else if word = none ∧ (c = '#' ∨ c = '~') then none
    else shell .plain (some (word.getD [] ++ [c])) r
  | .escaped, word, c :: r => if c = '\n' then shell .plain word r else shell .plain (some (word.getD [] ++ [c])) r
  | .double, word, c :: r =>
    if c = '"' then shell .plain word r
    else if c = '\\' then shell .doubleEscaped word r
    else if c = '$' ∨ c = '`' then none
    else shell .double (some (word.getD [] ++ [c])) r
  | .doubleEscaped, word, c :: r =>
    if c = '\n' then shell .double word r
    else if c ∈ ['$', '`', '"', '\\'] then shell .double (some (word.getD [] ++ [c])) r
    else shell .double (some (word.getD [] ++ ['\\', c])) r
  | .single, word, c :: r => if c = '\'' then shell .plain word r else shell .single (some (word.getD [] ++ [c])) r

/-- The words with a space between them. -/
def spaced : List (List Char) → List Char
  | [] => []
  | [a] => a
  | a :: b :: l => a ++ ' ' :: spaced (b :: l)

end Verif.CmdLine
