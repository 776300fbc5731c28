import Verif.Format.Model
import Verif.IntString.Spec

/-
What control strings mean: documentation/source/library-reference/io/format.rst.
-/

namespace Verif.Format
open Verif.IntString (numeral glyph)

/-- A printing field: flush left (written with a minus sign) or right, and the digits of its width. -/
structure Field where
  left : Bool
  digits : List Char

/-- The width in characters. -/
def Field.width (f : Field) : Nat := numeral 10 (f.digits.map (fun c => c.toNat - '0'.toNat))

/-- The width is a positive number that is an `<integer>`, written with decimal digits. -/
structure Field.Ok (f : Field) : Prop where
  digits : ∀ c ∈ f.digits, '0'.toNat ≤ c.toNat ∧ c.toNat ≤ '9'.toNat
  positive : 0 < f.width
  small : f.width < 2 ^ 61

/-- How a field is written. -/
def Field.write (f : Field) : List Char := (if f.left then ['-'] else []) ++ f.digits

/-- The pieces of a control string: characters and directives. -/
inductive Piece where
  | text (c : Char)
  | directive (field : Option Field) (c : Char)

/-- How a piece is written. -/
def Piece.write : Piece → List Char
  | .text c => [c]
  | .directive none c => ['%', c]
  | .directive (some f) c => '%' :: f.write ++ [c]

/-- Text has no percent sign, fields are right. -/
def Piece.Ok : Piece → Prop
  | .text c => c ≠ '%'
  | .directive none _ => True
  | .directive (some f) _ => f.Ok

/-- The control string made of the pieces. -/
def write (ps : List Piece) : List Char := ps.flatMap Piece.write

/-- The text stands for the integer: a minus sign if it is negative, and its digits, without needless
    zeros. -/
def Numeral (base : Nat) (lowercase : Bool) (n : Int) (t : List Char) : Prop :=
  ∃ ds : List Nat, numeral base ds = n.natAbs ∧ (∀ d ∈ ds, d < base) ∧
    (ds = [0] ∨ ∃ d ds', ds = d :: ds' ∧ d ≠ 0) ∧
    t = (if n < 0 then ['-'] else []) ++ ds.map (glyph lowercase)

/-- What a directive other than `%%` shows of its argument. -/
inductive Shows (p : Printer) : Char → Arg → List Char → Prop where
  | string (c s) : c ∈ ['s', 'S', 'c', 'C'] → Shows p c (.string s) s
  | char (c x) : c ∈ ['s', 'S', 'c', 'C'] → Shows p c (.char x) [x]
  | symbol (c s) : c ∈ ['s', 'S', 'c', 'C'] → Shows p c (.symbol s) s
  | plain (c a) : c ∈ ['s', 'S', 'c', 'C'] → (∀ s, a ≠ .string s) → (∀ x, a ≠ .char x) →
      (∀ s, a ≠ .symbol s) → Shows p c a (p.plain a)
  | object (a) : Shows p '=' a (p.object a)
  | decimal (c n t) : c ∈ ['d', 'D'] → Numeral 10 false n t → Shows p c (.int n) t
  | binary (c n t) : c ∈ ['b', 'B'] → Numeral 2 false n t → Shows p c (.int n) t
  | octal (c n t) : c ∈ ['o', 'O'] → Numeral 8 false n t → Shows p c (.int n) t
  | hexLower (n t) : Numeral 16 true n t → Shows p 'x' (.int n) t
  | hexUpper (n t) : Numeral 16 false n t → Shows p 'X' (.int n) t
  | float (c i) : c ∈ ['d', 'D'] → Shows p c (.float i) (p.object (.float i))
  | big (c i) : c ∈ ['d', 'D'] → Shows p c (.big i) (p.object (.big i))
  | call (c s) : c ∈ ['m', 'M'] → Shows p c (.func s) s

/-- The text in its field. -/
def justify : Option Field → List Char → List Char
  | none, t => t
  | some f, t =>
    if f.left then t ++ List.replicate (f.width - t.length) ' '
    else List.replicate (f.width - t.length) ' ' ++ t

/-- What the pieces say with the arguments, and the arguments that are left. -/
inductive Says (p : Printer) : List Piece → List Arg → List Char → List Arg → Prop where
  | done (args) : Says p [] args [] args
  | text (c ps args out left) : Says p ps args out left → Says p (.text c :: ps) args (c :: out) left
  | percent (f ps args out left) : Says p ps args out left →
      Says p (.directive f '%' :: ps) args (justify f ['%'] ++ out) left
  | directive (f c a t ps args out left) : Shows p c a t → Says p ps args out left →
      Says p (.directive f c :: ps) (a :: args) (justify f t ++ out) left

/-- The integers among the arguments are `<integer>`s. -/
def Fit (args : List Arg) : Prop := ∀ n, Arg.int n ∈ args → Verif.IntString.fits n = true

end Verif.Format
