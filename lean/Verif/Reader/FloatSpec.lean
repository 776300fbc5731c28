/-
Specification of floating point literals.
-/
import Verif.Reader.LiteralsSpec
import Verif.Reader.Float

namespace Verif.Reader.LexerSpec

/-- Decimal digits and their values. -/
inductive Decimals : List Byte → List Nat → Prop where
  | nil : Decimals [] []
  | cons {b : Byte} {d : Nat} {w : List Byte} {ds : List Nat} (h : IsDigit b d) (hd : d < 10) (hw : Decimals w ds) :
      Decimals (b :: w) (d :: ds)

/-- A sign. -/
inductive Sign : List Byte → Bool → Prop where
  | none : Sign [] false
  | plus : Sign [code '+'] false
  | minus : Sign [code '-'] true

/-- The markers of exponents and the classes of floats. -/
def markers : List (Char × Option FloatClass) :=
  [('e', none), ('E', none), ('d', some .double), ('D', some .double), ('s', some .single), ('S', some .single),
   ('x', some .extended), ('X', some .extended)]

/-- The exponent: its sign, its value and the class. -/
inductive Exponent : List Byte → Bool → Nat → Option FloatClass → Prop where
  | none : Exponent [] false 0 none
  | some {c : Char} {k : Option FloatClass} {s w : List Byte} {neg : Bool} {ds : List Nat} (hc : (c, k) ∈ markers)
      (hs : Sign s neg) (hw : Decimals w ds) (hne : w ≠ []) :
      Exponent (code c :: s ++ w) neg (number 10 ds) k

/-- The fraction. -/
inductive Fraction : List Byte → List Nat → Prop where
  | none : Fraction [] []
  | some {w : List Byte} {ds : List Nat} (hw : Decimals w ds) : Fraction (code '.' :: w) ds

/-- A literal, the digits before and after the point and the rest: the digits of the number are both, and each
    digit after the point divides it by ten. -/
structure FloatText (s i f e : List Byte) (v : Floating) (before after : List Nat) : Prop where
  sign : Sign s v.negative
  integer : Decimals i before
  fraction : Fraction f after
  exponent : Exponent e v.exponentNegative v.exponent v.cls
  mantissa : v.mantissa = number 10 (before ++ after)
  scale : v.scale = 10 ^ after.length
  digits : before ++ after ≠ []
  float : f ≠ [] ∨ e ≠ []

end Verif.Reader.LexerSpec
