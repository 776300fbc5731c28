/-
Conversion between integers and strings (`sources/common-dylan/format.dylan:230-366`).

Modelled: `integer-to-string` and `string-to-integer`. Integers are mathematical integers;
`<integer>` has those that fit in 62 bits, and `string-to-integer`, whose arithmetic can overflow,
checks that every result fits. Characters are byte characters.
Not modelled: strings of other characters (for which `character-to-integer` signals an error).
-/
namespace Verif.IntString

/-- What a call may do. -/
inductive Out (α : Type) where
  | ok (a : α)
  /-- `user-assert` failed. -/
  | assertion
  /-- "Reached end of %s without finding an integer". -/
  | noInteger
  /-- Integer overflow. -/
  | overflow
  deriving Repr, DecidableEq

/-- Is it an `<integer>`? -/
def fits (n : Int) : Bool := decide (-(2 ^ 61) ≤ n ∧ n < 2 ^ 61)

/-- `$number-characters` (`format.dylan:232-233`). -/
def numberCharacters : List Char :=
  ['0', '1', '2', '3', '4', '5', '6', '7', '8', '9', 'A', 'B', 'C', 'D', 'E', 'F', 'G', 'H', 'I',
   'J', 'K', 'L', 'M', 'N', 'O', 'P', 'Q', 'R', 'S', 'T', 'U', 'V', 'W', 'X', 'Y', 'Z']

/-- `integer-to-character` (`format.dylan:247-250`). Outside the vector, where the code signals an
    error, any character. -/
def integerToCharacter (n : Int) : Char := (numberCharacters[n.toNat]?).getD '?'

/-- `character-to-integer` with the table `$character-numbers` (`format.dylan:235-255`), row by
    row. -/
def characterToInteger (c : Char) : Option Nat :=
  if 0x30 ≤ c.toNat ∧ c.toNat ≤ 0x39 then some (c.toNat - 0x30)
  else if 0x41 ≤ c.toNat ∧ c.toNat ≤ 0x5A then some (c.toNat - 0x41 + 10)
  else if 0x61 ≤ c.toNat ∧ c.toNat ≤ 0x7A then some (c.toNat - 0x61 + 10)
  else none

/-- `as-lowercase` (`character.dylan:90-140`). -/
def asLowercase (c : Char) : Char :=
  if 0x41 ≤ c.toNat ∧ c.toNat ≤ 0x5A then Char.ofNat (c.toNat + 0x20) else c

/-- The loop `until (zero?(integer))` (`format.dylan:281-285`), which adds digits to the buffer.
    `fuel` bounds the number of rounds; without fuel the result is `none`. -/
def digitLoop (base : Int) : Nat → Int → List Char → Option (List Char)
  | fuel, n, buffer =>
    if n = 0 then some buffer
    else match fuel with
      | 0 => none
      | fuel + 1 => digitLoop base fuel (n.tdiv base) (buffer ++ [integerToCharacter (n.tmod base)])

/-- `integer-to-string` (`format.dylan:257-301`). The loop gets as much fuel as it can take in
    base 2. -/
def integerToString (n base size : Int) (fill : Char) (lowercase : Bool) :
    Option (Out (List Char)) :=
  if ¬ (2 ≤ base ∧ base ≤ 36) then some .assertion
  else
    let negative := decide (n < 0)
    let buffer0 := if n = 0 then ['0'] else []
    let buffer1 := if negative then buffer0 ++ [integerToCharacter (-(n.tmod base))] else buffer0
    let n1 := if negative then -(n.tdiv base) else n
    (digitLoop base 62 n1 buffer1).map fun buffer2 =>
      let remaining := size - buffer2.length - if negative then 1 else 0
      let buffer3 := buffer2 ++ List.replicate remaining.toNat fill
      let buffer4 := if negative then buffer3 ++ ['-'] else buffer3
      .ok (buffer4.reverse.map fun c => if lowercase then asLowercase c else c)

/-- The characters that are skipped (`format.dylan:330`). -/
def whitespace (c : Char) : Bool := c ∈ [' ', '\n', '\r', Char.ofNat 0xC, '\t']

/-- `while (start < stop & member?(...))` (`format.dylan:330-332`), on the rest of the region. -/
def skipBlanks : List Char → Nat → List Char × Nat
  | [], start => ([], start)
  | c :: rest, start => if whitespace c then skipBlanks rest (start + 1) else (c :: rest, start)

/-- The sign (`format.dylan:333-338`). -/
def readSign : List Char → Nat → Int × List Char × Nat
  | '+' :: rest, start => (1, rest, start + 1)
  | '-' :: rest, start => (-1, rest, start + 1)
  | rest, start => (1, rest, start)

/-- The loop over the digits (`format.dylan:341-352`): whether there is one, the value, and the
    next key. `none`: overflow in `value * base + digit * sign`. -/
def readDigits (base sign : Int) : List Char → Nat → Bool → Int → Option (Bool × Int × Nat)
  | [], i, valid, value => some (valid, value, i)
  | c :: rest, i, valid, value =>
    match characterToInteger c with
    | none => some (valid, value, i)
    | some digit =>
      if (digit : Int) ≥ base then some (valid, value, i)
      else if fits (value * base) && fits (digit * sign) &&
          fits (value * base + digit * sign) then
        readDigits base sign rest (i + 1) true (value * base + digit * sign)
      else none

/-- `string-to-integer` (`format.dylan:306-359`). -/
def stringToInteger (string : List Char) (base start : Int) (stop : Option Int)
    (default : Option Int) : Out (Int × Int) :=
  if ¬ (start = 0 ∨ (start > 0 ∧ start < string.length)) then .assertion
  else if stop.any fun stop => !decide (stop ≥ start ∧ stop ≤ string.length) then .assertion
  else
    let stop := stop.getD string.length
    if ¬ (2 ≤ base ∧ base ≤ 36) then .assertion
    else
      let region := (string.take stop.toNat).drop start.toNat
      let a := skipBlanks region start.toNat
      let b := readSign a.1 a.2
      match readDigits base b.1 b.2.1 b.2.2 false 0 with
      | none => .overflow
      | some (true, value, next) => .ok (value, next)
      | some (false, _, _) =>
        match default with
        | none => .noInteger
        | some d => .ok (d, start)

end Verif.IntString
