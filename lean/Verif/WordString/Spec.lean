import Verif.WordString.Model
import Verif.IntString.Spec

/-!
# The parts of a text with a machine word

Digits, blanks and numerals are those of `IntString/Spec`.
-/

namespace Verif.WordString

open Verif.IntString

/-- The text is made of blanks, perhaps a prefix, hexadecimal digits, and a rest that does not begin with one.  A prefix
with something behind it is taken for one. -/
structure Parts (text blanks pre digits rest : List Char) : Prop where
  text_eq : text = blanks ++ pre ++ digits ++ rest
  blanks_blank : ∀ c ∈ blanks, IsBlank c
  no_more_blanks : ∀ c cs, pre ++ digits ++ rest = c :: cs → ¬ IsBlank c
  pre_eq : pre = [] ∨ ((pre = ['#', 'x'] ∨ pre = ['0', 'x']) ∧ digits ++ rest ≠ [])
  no_pre : pre = [] → ∀ a b c cs, digits ++ rest = a :: b :: c :: cs → ¬ ((a = '#' ∨ a = '0') ∧ b = 'x')
  digits_digits : ∀ c ∈ digits, IsDigit 16 c
  no_more_digits : ∀ c cs, rest = c :: cs → ¬ IsDigit 16 c

/-- The number that hexadecimal digits stand for. -/
def meaning (digits : List Char) : Nat := numeral 16 (digits.map fun c => (digitOf c).getD 0)

end Verif.WordString
