/-
What the numerals in strings mean.
-/
import Verif.IntString.Model

namespace Verif.IntString

/-- The number that a list of digits, the most significant first, stands for. -/
def numeral (base : Nat) : List Nat → Nat
  | [] => 0
  | d :: ds => d * base ^ ds.length + numeral base ds

/-- The character for a digit. -/
def glyph (lowercase : Bool) (d : Nat) : Char :=
  ((if lowercase then "0123456789abcdefghijklmnopqrstuvwxyz"
    else "0123456789ABCDEFGHIJKLMNOPQRSTUVWXYZ").toList[d]?).getD '?'

/-- The value of a digit or letter: `0` to `9`, then `A` to `Z`, large or small. -/
def digitOf (c : Char) : Option Nat :=
  ("0123456789ABCDEFGHIJKLMNOPQRSTUVWXYZ".toList.idxOf? c).or
    (("0123456789abcdefghijklmnopqrstuvwxyz".toList.idxOf? c))

/-- The character `c` is a digit in the base. -/
def IsDigit (base : Nat) (c : Char) : Prop := ∃ d, digitOf c = some d ∧ d < base

/-- A space, newline, carriage return, form feed or tab. -/
def IsBlank (c : Char) : Prop := c = ' ' ∨ c = '\n' ∨ c = '\r' ∨ c.toNat = 12 ∨ c = '\t'

/-- The text is made of blanks, perhaps a sign, the digits `ds`, and a rest that does not begin
    with a digit. The sign is taken if there is one. -/
structure Parts (base : Nat) (text : List Char) (blanks sign digits rest : List Char) : Prop where
  text_eq : text = blanks ++ sign ++ digits ++ rest
  blanks_blank : ∀ c ∈ blanks, IsBlank c
  no_more_blanks : ∀ c cs, sign ++ digits ++ rest = c :: cs → ¬ IsBlank c
  sign_eq : sign = [] ∨ sign = ['+'] ∨ sign = ['-']
  no_sign : sign = [] → ∀ c cs, digits ++ rest = c :: cs → c ≠ '+' ∧ c ≠ '-'
  digits_digits : ∀ c ∈ digits, IsDigit base c
  no_more_digits : ∀ c cs, rest = c :: cs → ¬ IsDigit base c

/-- The number the sign and the digits stand for. -/
def meaning (base : Nat) (sign digits : List Char) : Int :=
  (if sign = ['-'] then -1 else 1) *
    (numeral base (digits.map fun c => (digitOf c).getD 0) : Nat)

end Verif.IntString
