import Verif.Reader.Literals
import Verif.IntString.Model

/-
Characters, strings and symbols as `print` of the io library writes them when `*print-escape?*` is true:
sources/io/print.dylan. Characters are bytes, as in `<byte-string>`s.
-/

namespace Verif.Print
open Verif.Reader Verif.IntString

/-- `integer-to-string(code, base: 16)`, common-dylan/format.dylan:257-301. -/
def hexText (b : Byte) : List Byte :=
  match integerToString b.val 16 0 '0' false with
  | some (.ok t) => t.map code
  | _ => []

/-- `"\\<"`, the code and `'>'`, print.dylan:453-455 and 462-464. -/
def hexEscape (b : Byte) : List Byte :=
  [code '\\', code '<'] ++ hexText b ++ [code '>']

/-- The `select` of `write-char-maybe-escape`, print.dylan:443-456. -/
def controlEscape (b : Byte) : List Byte :=
  if b.val = 0 then [code '\\', code '0']
  else if b.val = 7 then [code '\\', code 'a']
  else if b.val = 8 then [code '\\', code 'b']
  else if b.val = 9 then [code '\\', code 't']
  else if b.val = 12 then [code '\\', code 'f']
  else if b.val = 13 then [code '\\', code 'r']
  else if b.val = 10 then [code '\\', code 'n']
  else if b.val = 27 then [code '\\', code 'e']
  else hexEscape b

/-- `write-char-maybe-escape`, print.dylan:438-469. -/
def writeChar (quote : Byte) (b : Byte) : List Byte :=
  if b.val < 32 then controlEscape b
  else if b = quote then [code '\\', b]
  else if b = code '\\' then [code '\\', code '\\']
  else if 126 < b.val then hexEscape b
  else [b]

/-- `print-object` of a character, print.dylan:424-432. -/
def printCharacter (b : Byte) : List Byte :=
  [code '\''] ++ writeChar (code '\'') b ++ [code '\'']

/-- The characters that need care in a string, print.dylan:511. -/
def breaks (b : Byte) : Bool :=
  b.val < 32 || b == code '"' || b == code '\\' || 126 < b.val

/-- `find-next-break`, print.dylan:503-517: what is before the break, and the rest of the string from it. -/
def findBreak : List Byte → List Byte × List Byte
  | [] => ([], [])
  | b :: bs => if breaks b then ([], b :: bs) else ((b :: (findBreak bs).1), (findBreak bs).2)

/-- `write-guts`, print.dylan:519-528; every round takes one character or ends the string, so that
    the length of the string is enough rounds. -/
def writeGuts : Nat → List Byte → List Byte
  | 0, _ => []
  | fuel + 1, bs =>
    match (findBreak bs).2 with
    | [] => (findBreak bs).1
    | b :: rest => (findBreak bs).1 ++ writeChar (code '"') b ++ writeGuts fuel rest

/-- `write-string-escaped` of a `<byte-string>`, print.dylan:498-533. -/
def printString (bs : List Byte) : List Byte :=
  [code '"'] ++ writeGuts (bs.length + 1) bs ++ [code '"']

/-- `write-string-escaped` of other strings, print.dylan:540-547. -/
def printStringEach (bs : List Byte) : List Byte :=
  [code '"'] ++ bs.flatMap (writeChar (code '"')) ++ [code '"']

/-- `as-lowercase` of a character, dylan/character.dylan:43-51. -/
def lower (b : Byte) : Byte :=
  if 0x41 ≤ b.val ∧ b.val ≤ 0x5A then b + 0x20 else b

/-- `print-object` of a symbol with the given name, print.dylan:1046-1054. -/
def printSymbol (name : List Byte) : List Byte :=
  [code '#'] ++ printString (name.map lower)

end Verif.Print
