/-
How words are written in build files.
-/
namespace Verif.JamLex

/-- A part of a word: a character that stands for itself, one after a backslash, or text in quotes. -/
inductive Piece where
  | plain (c : Char)
  | escaped (c : Char)
  | quoted (w : List Char)

/-- Characters that separate words. -/
def IsBlank (c : Char) : Prop := c ∈ [' ', '\t', Char.ofNat 12, '\n', '\r']

/-- Text in quotes is written with backslashes before quotes and backslashes. -/
def inQuotes : List Char → List Char
  | [] => []
  | c :: w => (if c = '"' ∨ c = '\\' then ['\\', c] else [c]) ++ inQuotes w

/-- The text of a part. -/
def Piece.text : Piece → List Char
  | .plain c => [c]
  | .escaped c => ['\\', c]
  | .quoted w => '"' :: inQuotes w ++ ['"']

/-- What a part stands for. -/
def Piece.value : Piece → List Char
  | .plain c => [c]
  | .escaped c => [c]
  | .quoted w => w

/-- A character that stands for itself is no blank, quote or backslash; one after a backslash does not end a
    line. -/
def Piece.Ok : Piece → Prop
  | .plain c => ¬ IsBlank c ∧ c ≠ '"' ∧ c ≠ '\\'
  | .escaped c => c ≠ '\n' ∧ c ≠ '\r'
  | .quoted _ => True

/-- A word with such a part is never punctuation or a keyword. -/
def Piece.special : Piece → Bool
  | .plain c => c = '#'
  | _ => true

/-- The ends of lines in a text: a carriage return with a newline after it is one. -/
def lineEnds : List Char → Nat
  | [] => 0
  | c :: s => (if c = '\n' ∨ (c = '\r' ∧ s.head? ≠ some '\n') then 1 else 0) + lineEnds s

/-- Blanks and comments, each up to a blank that ends its line. -/
inductive Gap : List Char → Prop where
  | nil : Gap []
  | blank {c s} : IsBlank c → Gap s → Gap (c :: s)
  | comment {w e s} : '\n' ∉ w → '\r' ∉ w → (e = '\n' ∨ e = '\r') → Gap s → Gap ('#' :: w ++ e :: s)

/-- Text in which braces come in pairs. -/
inductive Balanced : List Char → Prop where
  | nil : Balanced []
  | char {c s} : c ≠ '{' → c ≠ '}' → Balanced s → Balanced (c :: s)
  | pair {b s} : Balanced b → Balanced s → Balanced ('{' :: b ++ '}' :: s)

end Verif.JamLex
