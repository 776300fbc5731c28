import Verif.IntString.Model

/-!
# Machine words and strings

`machine-word-to-string` and `string-to-machine-word` of `sources/common-dylan/format.dylan` (FO) 499-571.

Simplifications: words have 64 bits; strings consist of byte characters; the default of `string-to-machine-word` is a
machine word (the variable that it is assigned to has that type).
-/

namespace Verif.WordString

open Verif.IntString (Out integerToString characterToInteger skipBlanks)

/-- `machine-word-to-string` (FO:499-516).  The fill of `integer-to-string` is `'0'` (`format.dylan:259`). -/
def wordToString (w : BitVec 64) (pre : Option (List Char)) : Option (List Char) :=
  let high : Int := (w >>> 32).toNat
  let low : Int := ((w <<< 32) >>> 32).toNat
  match integerToString high 16 8 '0' false, integerToString low 16 8 '0' false with
  | some (.ok h), some (.ok l) => some (pre.getD [] ++ h ++ l)
  | _, _ => none

/-- The removal of a prefix (FO:539-543), on the rest of the region. -/
def skipPrefix : List Char → Nat → List Char × Nat
  | a :: b :: c :: rest, start =>
    if (a = '#' ∧ b = 'x') ∨ (a = '0' ∧ b = 'x') then (c :: rest, start + 2) else (a :: b :: c :: rest, start)
  | cs, start => (cs, start)

/-- The loop (FO:547-560): the value, where it ends, and whether that is the end of the region. -/
def readWord : List Char → Nat → BitVec 64 → BitVec 64 × Nat × Bool
  | [], i, value => (value, i, true)
  | c :: rest, i, value =>
    match characterToInteger c with
    | none => (value, i, false)
    | some digit =>
      if digit ≥ 16 then (value, i, false)
      else readWord rest (i + 1) ((value <<< 4) ||| BitVec.ofNat 64 digit)

/-- `string-to-machine-word` (FO:518-571). -/
def stringToWord (string : List Char) (start : Int) (stop : Option Int) (default : Option (BitVec 64)) :
    Out (BitVec 64 × Int) :=
  if ¬ (start ≥ 0 ∧ start < string.length) then .assertion
  else if stop.any fun stop => !decide (stop ≥ start ∧ stop ≤ string.length) then .assertion
  else
    let stop := stop.getD string.length
    let region := (string.take stop.toNat).drop start.toNat
    let a := skipBlanks region start.toNat
    let b := skipPrefix a.1 a.2
    let r := readWord b.1 b.2 0
    if r.2.2 || decide (r.2.1 > b.2) then .ok (r.1, r.2.1)
    else match default with
      | none => .noInteger
      | some d => .ok (d, b.2)

end Verif.WordString
