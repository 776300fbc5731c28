/-
Specification of names and literals: how they are written and what they mean.
-/
import Verif.Reader.LexerSpec

namespace Verif.Reader.LexerSpec

/-! ### Names -/

/-- Letters. -/
def letters : List Byte := bytes "abcdefghijklmnopqrstuvwxyzABCDEFGHIJKLMNOPQRSTUVWXYZ"

/-- The characters of names: letters, digits, and the graphic and special characters. -/
def nameChars : List Byte := letters ++ bytes "0123456789!&*<=>|^$%@_-+~?/"

/-- What comes next cannot go on a name or a number. -/
def Delimited (rest : List Byte) : Prop :=
  ∀ c, rest.head? = some c → c ∉ nameChars ∧ c ≠ code '.' ∧ c ≠ code ':'

/-- Names that begin with a letter, and names that begin with a graphic character and have a letter in them. -/
inductive NameText : List Byte → Prop where
  | letter {c : Byte} {w : List Byte} (hc : c ∈ letters) (hw : ∀ b ∈ w, b ∈ nameChars) : NameText (c :: w)
  | graphic {g c : Byte} {v w : List Byte} (hg : g ∈ bytes "!&*<=>|^$%@_") (hv : ∀ b ∈ v, b ∈ nameChars)
      (hc : c ∈ letters) (hw : ∀ b ∈ w, b ∈ nameChars) : NameText (g :: v ++ c :: w)

/-! ### Integers -/

/-- A digit and its value. -/
def IsDigit (b : Byte) (d : Nat) : Prop :=
  (bytes "0123456789abcdef")[d]? = some b ∨ (bytes "0123456789ABCDEF")[d]? = some b

/-- The number with these digits. -/
def number (radix : Nat) (ds : List Nat) : Nat := ds.foldl (fun n d => n * radix + d) 0

/-- Digits and their values. -/
inductive Digits : List Byte → List Nat → Prop where
  | nil : Digits [] []
  | cons {b : Byte} {d : Nat} {w : List Byte} {ds : List Nat} (h : IsDigit b d) (hw : Digits w ds) :
      Digits (b :: w) (d :: ds)

/-- Digits, with single underscores between some of them. -/
inductive Grouped (radix : Nat) : List Byte → List Nat → Prop where
  | last {b : Byte} {d : Nat} (h : IsDigit b d) (hd : d < radix) : Grouped radix [b] [d]
  | digit {b : Byte} {d : Nat} {w : List Byte} {ds : List Nat} (h : IsDigit b d) (hd : d < radix)
      (hw : Grouped radix w ds) : Grouped radix (b :: w) (d :: ds)
  | underscore {b : Byte} {d : Nat} {w : List Byte} {ds : List Nat} (h : IsDigit b d) (hd : d < radix)
      (hw : Grouped radix w ds) : Grouped radix (b :: code '_' :: w) (d :: ds)

/-- The integer literals and their values. -/
inductive IntegerText : List Byte → Int → Prop where
  | plain {w : List Byte} {ds : List Nat} (h : Grouped 10 w ds) : IntegerText w (number 10 ds)
  | plus {w : List Byte} {ds : List Nat} (h : Grouped 10 w ds) : IntegerText (code '+' :: w) (number 10 ds)
  | minus {w : List Byte} {ds : List Nat} (h : Grouped 10 w ds) :
      IntegerText (code '-' :: w) (-(number 10 ds : Int))
  | radix {c : Char} {r : Nat} {w : List Byte} {ds : List Nat}
      (hr : (c, r) ∈ [('b', 2), ('B', 2), ('o', 8), ('O', 8), ('x', 16), ('X', 16)]) (h : Grouped r w ds) :
      IntegerText (code '#' :: code c :: w) (number r ds)

/-! ### Characters and strings -/

/-- How one character is written in a character literal or a string. -/
inductive Item where
  | plain (b : Byte)
  | escape (letter : Byte)
  | hex (digits : List Byte)

/-- The text. -/
def Item.text : Item → List Byte
  | .plain b => [b]
  | .escape c => [code '\\', c]
  | .hex ds => code '\\' :: code '<' :: ds ++ [code '>']

/-- The letters of escapes, and the codes that they stand for. -/
def escapes : List (Char × Nat) :=
  [('a', 7), ('b', 8), ('e', 27), ('f', 12), ('n', 10), ('r', 13), ('t', 9), ('0', 0), ('\\', 92), ('\'', 39),
   ('"', 34)]

/-- The character that an item stands for. -/
inductive Means : Item → Byte → Prop where
  | plain (b : Byte) : Means (.plain b) b
  | escape {c : Char} {n : Nat} (h : (c, n) ∈ escapes) : Means (.escape (code c)) (Fin.ofNat 256 n)
  | hex {w : List Byte} {ds : List Nat} (h : Digits w ds) (hne : w ≠ []) (hn : number 16 ds < 256) :
      Means (.hex w) (Fin.ofNat 256 (number 16 ds))

/-- A string's text and its characters. -/
inductive Spells (ok : Byte → Prop) : List Item → List Byte → Prop where
  | nil : Spells ok [] []
  | cons {i : Item} {b : Byte} {is : List Item} {bs : List Byte} (h : Means i b)
      (hp : ∀ c, i = .plain c → ok c) (hs : Spells ok is bs) : Spells ok (i :: is) (b :: bs)

/-- The text of some items. -/
def textOf (is : List Item) : List Byte := (is.map Item.text).flatten

/-- Characters that stand for themselves in a string on one line. -/
def OneLine (b : Byte) : Prop :=
  ((32 ≤ b.val ∧ b.val < 127) ∨ 128 ≤ b.val) ∧ b ≠ code '"' ∧ b ≠ code '\\'

end Verif.Reader.LexerSpec
