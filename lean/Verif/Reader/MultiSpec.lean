/-
Specification of strings with three quotes or more.
-/
import Verif.Reader.LiteralsSpec

namespace Verif.Reader.LexerSpec

/-- So many quotes. -/
def quotes (n : Nat) : List Byte := List.replicate n (code '"')

/-- So many spaces. -/
def spaces (n : Nat) : List Byte := List.replicate n (code ' ')

/-- Text that can stand between `n` quotes and `n` quotes, after `k` quotes in a row: `n` quotes in a row are not in it,
    except as escapes, and it does not end with a quote. -/
inductive Between (escapes : Bool) (n : Nat) : Nat → List Byte → Prop where
  | done : Between escapes n 0 []
  | quote {k : Nat} {w : List Byte} (hk : k + 1 < n) (hw : Between escapes n (k + 1) w) :
      Between escapes n k (code '"' :: w)
  | plain {k : Nat} {b : Byte} {w : List Byte}
      (hb : (32 ≤ b.val ∧ b.val < 127) ∨ 128 ≤ b.val ∨ b = code '\n' ∨ b = code '\r') (hq : b ≠ code '"')
      (he : escapes = true → b ≠ code '\\') (hw : Between escapes n 0 w) : Between escapes n k (b :: w)
  | escape {k : Nat} {i : Item} {b : Byte} {w : List Byte} (he : escapes = true) (hm : Means i b)
      (hi : ∀ c, i ≠ .plain c) (hw : Between escapes n 0 w) : Between escapes n k (i.text ++ w)

/-- A string literal's text that does not begin with a quote. -/
def Inside (escapes : Bool) (n : Nat) (w : List Byte) : Prop :=
  Between escapes n 0 w ∧ w ≠ [] ∧ w.head? ≠ some (code '"')

/-- Characters of a line of a string between three quotes or more. -/
def MultiLine (b : Byte) : Prop := ((32 ≤ b.val ∧ b.val < 127) ∨ 128 ≤ b.val) ∧ b ≠ code '\\'

/-- Characters of a line of such a raw string. -/
def RawMultiLine (b : Byte) : Prop := (32 ≤ b.val ∧ b.val < 127) ∨ 128 ≤ b.val

/-- What the text of a line stands for. -/
def LineMeans (escapes : Bool) (text bs : List Byte) : Prop :=
  if escapes then ∃ is, text = textOf is ∧ Spells MultiLine is bs else text = bs ∧ ∀ b ∈ bs, RawMultiLine b

/-- A line with the indentation; a blank line can be shorter. -/
inductive Line (escapes : Bool) (indent : Nat) : List Byte → List Byte → Prop where
  | text {w bs : List Byte} (h : LineMeans escapes w bs) : Line escapes indent (spaces indent ++ w) bs
  | blank {k : Nat} (h : k < indent) : Line escapes indent (spaces k) []

/-- Lines, each with the line break after it, and the strings that they stand for. -/
inductive Lines (escapes : Bool) (indent : Nat) (br : List Byte) : List Byte → List (List Byte) → Prop where
  | nil : Lines escapes indent br [] []
  | cons {w bs ws : List Byte} {bss : List (List Byte)} (h : Line escapes indent w bs)
      (hs : Lines escapes indent br ws bss) : Lines escapes indent br (w ++ br ++ ws) (bs :: bss)

/-- The lines as one string. -/
def joined : List (List Byte) → List Byte
  | [] => []
  | [l] => l
  | l :: ls => l ++ code '\n' :: joined ls

/-- The ways to break a line. -/
def IsBreak (br : List Byte) : Prop := br = [code '\n'] ∨ br = [code '\r', code '\n'] ∨ br = [code '\r']

/-- How a string begins: nothing, `#` for a symbol, or `#r` for a raw string. -/
inductive Opens : Bool → Builder → List Byte → Prop where
  | string : Opens true .string []
  | symbol : Opens true .string [code '#']
  | raw {r : Byte} (hr : r = code 'r' ∨ r = code 'R') : Opens false .rawString [code '#', r]

end Verif.Reader.LexerSpec
