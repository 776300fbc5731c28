/-
Model of the values of floating point literals: `atof` of /repo/sources/dfmc/reader/lexer.dylan.

`atof` finds a sign, a mantissa, a scale and an exponent, and then makes a float from them.  The model stops before
the last step: it gives the integers and the class, so that the exact value of the literal is
`sign * mantissa / scale * 10 ^ exponent`.  What floating point arithmetic makes of it is not modelled.
-/
import Verif.Reader.Literals

namespace Verif.Reader

/-- The classes of `atof`: `none` for no marker or `e`. -/
inductive FloatClass where
  | single | double | extended
  deriving DecidableEq, Repr

/-- The variables of `atof` (`lexer.dylan:1212-1220`) at its end; `scale` is 1 where the variable is false. -/
structure Floating where
  negative : Bool
  mantissa : Nat
  scale : Nat
  exponentNegative : Bool
  exponent : Nat
  cls : Option FloatClass
  deriving DecidableEq, Repr

/-- `$max-mantissa-digits` (`lexer.dylan:1206`). -/
def maxMantissaDigits : Nat := 18

/-- The variables of the loop over the mantissa (`lexer.dylan:1236-1274`). -/
structure Mantissa where
  mantissa : Nat
  scale : Option Nat
  digits : Nat
  shift : Nat
  deriving DecidableEq, Repr

/-- A digit. -/
def decimalDigit (b : Byte) : Option Nat :=
  if '0'.toNat ≤ b.val ∧ b.val ≤ '9'.toNat then some (b.val - '0'.toNat) else none

/-- A digit of the mantissa (`lexer.dylan:1239-1255`). -/
def Mantissa.digit (m : Mantissa) (d : Nat) : Mantissa :=
  if m.digits < maxMantissaDigits then
    { m with mantissa := m.mantissa * 10 + d, scale := m.scale.map (· * 10), digits := m.digits + 1 }
  else
    { m with shift := if m.scale.isNone then m.shift + 1 else m.shift, digits := m.digits + 1 }

/-- The marker of the exponent (`lexer.dylan:1261-1271`). -/
def exponentMarker (b : Byte) : Option (Option FloatClass) :=
  if b = code 'e' ∨ b = code 'E' then some none
  else if b = code 'd' ∨ b = code 'D' then some (some .double)
  else if b = code 's' ∨ b = code 'S' then some (some .single)
  else if b = code 'x' ∨ b = code 'X' then some (some .extended)
  else none

/-- The loop over the mantissa (`lexer.dylan:1236-1276`): the class and the rest after a marker; nothing for its
    errors. -/
def mantissaLoop : Mantissa → List Byte → Option (Mantissa × Option (Option FloatClass × List Byte))
  | m, [] => some (m, none)
  | m, b :: l =>
    match decimalDigit b with
    | some d => mantissaLoop (m.digit d) l
    | none =>
      if b = code '.' then
        if m.scale.isSome then none else mantissaLoop { m with scale := some 1 } l
      else
        match exponentMarker b with
        | some c => some (m, some (c, l))
        | none => if b = code '_' then mantissaLoop m l else none

/-- The loop over the exponent (`lexer.dylan:1291-1302`). -/
def exponentLoop : Nat → List Byte → Option Nat
  | e, [] => some e
  | e, b :: l =>
    match decimalDigit b with
    | some d => exponentLoop (e * 10 + d) l
    | none => if b = code '_' then exponentLoop e l else none

/-- The exponent and its sign (`lexer.dylan:1281-1303`). -/
def exponentPart : List Byte → Option (Bool × Nat)
  | [] => some (false, 0)
  | b :: l =>
    if b = code '-' then (exponentLoop 0 l).map (fun e => (true, e))
    else if b = code '+' then (exponentLoop 0 l).map (fun e => (false, e))
    else (exponentLoop 0 (b :: l)).map (fun e => (false, e))

/-- What follows the sign. -/
def unsignedFloat (negative : Bool) (l : List Byte) : Option Floating :=
  match mantissaLoop ⟨0, none, 0, 0⟩ l with
  | none => none
  | some (m, none) => some ⟨negative, m.mantissa, m.scale.getD 1, false, m.shift, none⟩
  | some (m, some (c, rest)) =>
    match exponentPart rest with
    | none => none
    | some (neg, e) => some ⟨negative, m.mantissa, m.scale.getD 1, neg, e + m.shift, c⟩

/-- `atof` (`lexer.dylan:1208-1357`) up to the floating point arithmetic: the shift is added to the exponent
    whatever its sign is (`lexer.dylan:1306`). -/
def atof : List Byte → Option Floating
  | [] => unsignedFloat false []
  | b :: l =>
    if b = code '-' then unsignedFloat true l
    else if b = code '+' then unsignedFloat false l
    else unsignedFloat false (b :: l)

end Verif.Reader
