/-
Specification of the lexer: lines and columns, what may stand between tokens, and the longest token.
-/
import Verif.Reader.Lexer

namespace Verif.Reader.LexerSpec

/-- The line of a position: one more than the newlines before it. -/
def lineOf (source : List Byte) (p : Nat) : Nat := (source.take p).count (code '\n') + 1

/-- The column of a position: how many characters of its line come before it. -/
def columnOf (source : List Byte) (p : Nat) : Nat :=
  ((source.take p).reverse.takeWhile (fun b => b != code '\n')).length

/-- The text from one position to another. -/
def text (source : List Byte) (p q : Nat) : List Byte := (source.drop p).take (q - p)

/-- The lexer's own idea of its position is right. -/
structure Located (source : List Byte) (lx : Lexer) : Prop where
  inside : lx.pos ≤ source.length
  line : lx.line = lineOf source lx.pos
  column : (lx.pos : Int) - lx.lineStart = columnOf source lx.pos

/-- What may stand between tokens: white space, comments to the end of a line, and delimited comments. -/
inductive Blank : List Byte → Prop where
  | nil : Blank []
  | space {b : Byte} {l : List Byte} (h : b ∈ bytes " \t\x0c\n\r") : Blank l → Blank (b :: l)
  | line {m l : List Byte} {b : Byte} (hm : ∀ x ∈ m, x ≠ code '\n' ∧ x ≠ code '\r')
      (hb : b = code '\n' ∨ b = code '\r') : Blank l → Blank (bytes "//" ++ m ++ b :: l)
  | delimited {m l : List Byte} : Blank l → Blank (bytes "/*" ++ m ++ bytes "*/" ++ l)

/-- The state of the table after a word. -/
def after : St → List Byte → Option St
  | st, [] => some st
  | st, b :: w => (next st b).bind (fun st' => after st' w)

/-- The table accepts a word as a token of this kind. -/
def Accepts (w : List Byte) (b : Builder) : Prop := ∃ st, after .start w = some st ∧ builder st = some b

/-- The lexer reads the token `w` of this kind at its position, and has counted so many quotes. -/
def Reads (source : List Byte) (lx : Lexer) (w : List Byte) (b : Builder) (quotes : Nat) : Prop :=
  ∃ sp lx', getToken source lx = .token b sp lx' ∧ sp.startPos = lx.pos ∧ sp.endPos = lx.pos + w.length ∧
    lx'.pos = lx.pos + w.length ∧ lx'.quoteStart = quotes

end Verif.Reader.LexerSpec
