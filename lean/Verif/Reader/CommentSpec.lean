/-
Specification of white space and comments.
-/
import Verif.Reader.LiteralsSpec

namespace Verif.Reader.LexerSpec

/-- Printing characters and white space. -/
def Printing (b : Byte) : Prop :=
  b.val = 9 ∨ b.val = 10 ∨ b.val = 12 ∨ b.val = 13 ∨ (32 ≤ b.val ∧ b.val < 127) ∨ 128 ≤ b.val

instance (b : Byte) : Decidable (Printing b) := inferInstanceAs (Decidable (_ ∨ _))

/-- Text without line breaks. -/
def LineText (w : List Byte) : Prop := ∀ b ∈ w, Printing b ∧ b ≠ code '\n' ∧ b ≠ code '\r'

/-- The text that remains in `d` comments, one in the other, up to the end of the outermost one: comments nest, and
    in a comment to the end of a line `/*` and `*/` have no meaning.  In a strict comment the end of an inner comment
    is not followed by `*` or `/`. -/
inductive Comment (strict : Bool) : Nat → List Byte → Prop where
  | last : Comment strict 1 (bytes "*/")
  | plain {d : Nat} {b : Byte} {w : List Byte} (hb : Printing b) (h1 : b ≠ code '*') (h2 : b ≠ code '/')
      (hw : Comment strict d w) : Comment strict d (b :: w)
  | star {d : Nat} {w : List Byte} (hw : Comment strict d w) (h : w.head? ≠ some (code '/')) :
      Comment strict d (code '*' :: w)
  | slash {d : Nat} {w : List Byte} (hw : Comment strict d w) (h : w.head? ≠ some (code '/'))
      (h' : w.head? ≠ some (code '*')) : Comment strict d (code '/' :: w)
  | inner {d : Nat} {w : List Byte} (hw : Comment strict (d + 1) w) : Comment strict d (bytes "/*" ++ w)
  | outer {d : Nat} {w : List Byte} (hd : 0 < d) (hw : Comment strict d w)
      (h : strict = true → w.head? ≠ some (code '/') ∧ w.head? ≠ some (code '*')) :
      Comment strict (d + 1) (bytes "*/" ++ w)
  | line {d : Nat} {m w : List Byte} {b : Byte} (hm : LineText m) (hb : b = code '\n' ∨ b = code '\r')
      (hw : Comment strict d w) : Comment strict d (bytes "//" ++ m ++ b :: w)

/-- White space, and comments. -/
inductive Blanks (strict : Bool) : List Byte → Prop where
  | nil : Blanks strict []
  | space {b : Byte} {l : List Byte} (h : b ∈ bytes " \t\x0c\n\r") (hl : Blanks strict l) : Blanks strict (b :: l)
  | line {m l : List Byte} {b : Byte} (hm : LineText m) (hb : b = code '\n' ∨ b = code '\r')
      (hl : Blanks strict l) : Blanks strict (bytes "//" ++ m ++ b :: l)
  | delimited {w l : List Byte} (hw : Comment strict 1 w) (hl : Blanks strict l) :
      Blanks strict (bytes "/*" ++ w ++ l)

/-- The lexer after a byte, and after some bytes that have no tokens in them. -/
def passOne (lx : Lexer) (b : Byte) : Lexer :=
  if b = code '\n' then { lx with pos := lx.pos + 1, line := lx.line + 1, lineStart := lx.pos + 1 }
  else { lx with pos := lx.pos + 1 }

def pass (lx : Lexer) (w : List Byte) : Lexer := w.foldl passOne lx

/-- The next token is the same. -/
def SameToken (source : List Byte) (lx lx' : Lexer) : Prop :=
  ∀ b sp l, getToken source lx = .token b sp l ↔ getToken source lx' = .token b sp l

end Verif.Reader.LexerSpec
