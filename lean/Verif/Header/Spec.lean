import Verif.Header.Model

/-!
# A file as a list of lines
-/

namespace Verif.Header

/-- A line with the characters that end it. -/
structure Line where
  content : List Char
  ending : List Char

/-- The characters of a file. -/
def textOf (ls : List Line) : List Char := ls.flatMap fun l => l.content ++ l.ending

/-- The lines of a file: each ends with a line feed, a carriage return or both; the last one may have no end if it is not empty. -/
def LinesOk : List Line → Prop
  | [] => True
  | l :: ls => '\n' ∉ l.content ∧ '\r' ∉ l.content ∧ l.ending ∈ [['\n'], ['\r'], ['\r', '\n'], []] ∧
    (l.ending = [] → l.content ≠ [] ∧ ls = []) ∧ (l.ending = ['\r'] → (textOf ls).head? ≠ some '\n') ∧ LinesOk ls

/-- A line of spaces and tabs only. -/
def Line.blank (l : Line) : Bool := l.content.all fun c => c = ' ' || c = '\t'

/-- A line that begins with a space or a tab. -/
def Line.indented (l : Line) : Bool :=
  match l.content with
  | [] => false
  | c :: _ => c = ' ' || c = '\t'

/-- The lines before the first blank one. -/
def headerOf (ls : List Line) : List Line := ls.takeWhile fun l => !l.blank

/-- These lines and the blank one. -/
def consumed (ls : List Line) : List Line := headerOf ls ++ (ls.dropWhile fun l => !l.blank).take 1

/-- The lines after it. -/
def bodyOf (ls : List Line) : List Line := (ls.dropWhile fun l => !l.blank).drop 1

/-- The lines of a header: a line with a keyword, and the lines after it that are indented. -/
def groups : List Line → List (Line × List Line)
  | [] => []
  | l :: ls => (l, ls.takeWhile Line.indented) :: groups (ls.dropWhile Line.indented)
  termination_by ls => ls.length
  decreasing_by
    have := (List.dropWhile_sublist Line.indented (l := ls)).length_le
    simp only [List.length_cons]
    omega

/-- The keyword of a line: what is before the first colon, in lower case. -/
def keyOf (g : Line × List Line) : List Char := symbol (g.1.content.takeWhile (· ≠ ':'))

/-- The strings of a keyword: what is after the colon and the lines after it, without the spaces and tabs at both ends. -/
def stringsOf (g : Line × List Line) : List (List Char) :=
  strip ((g.1.content.dropWhile (· ≠ ':')).drop 1) :: g.2.map fun l => strip l.content

/-- The strings of a keyword in the whole header. -/
def valueOf (ls : List Line) (key : List Char) : List (List Char) :=
  ((groups (headerOf ls)).filter fun g => keyOf g = key).flatMap stringsOf

/-- A header that is well formed: each line with a keyword has a colon, and there are no two with the keyword `module`, nor two
with the keyword `language`. -/
def HeaderOk (ls : List Line) : Prop :=
  (∀ g ∈ groups (headerOf ls), ':' ∈ g.1.content) ∧
  (groups (headerOf ls)).Pairwise fun a b => keyOf a = keyOf b → keyOf a ≠ "module".toList ∧ keyOf a ≠ "language".toList

end Verif.Header
