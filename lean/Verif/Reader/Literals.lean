/-
Model of the values of literals: the functions of /repo/sources/dfmc/reader/lexer.dylan that the lexer calls for
integers, characters and strings.

A function gets the bytes of the text that the code reads from the source between two positions.  Simplifications:
integers are exact and `tooLarge` stands for what happens outside of 128 bits (C100, C101 and C103 have the
details of that arithmetic); a `note` of a serious warning is recorded and what follows it is left out.
-/
import Verif.Reader.Lexer

namespace Verif.Reader

/-! ### Integers -/

/-- The value of a digit (`lexer.dylan:957-969`): digits and letters of base 16, whatever the radix is. -/
def digitValue (b : Byte) : Option Nat :=
  if '0'.toNat ≤ b.val ∧ b.val ≤ '9'.toNat then some (b.val - '0'.toNat)
  else if 'A'.toNat ≤ b.val ∧ b.val ≤ 'F'.toNat then some (10 + b.val - 'A'.toNat)
  else if 'a'.toNat ≤ b.val ∧ b.val ≤ 'f'.toNat then some (10 + b.val - 'a'.toNat)
  else none

/-- What `parse-integer` does: it returns an integer and a position (counted from where it begins), it signals
    the error about a bogus digit, or the integer does not have 128 bits. -/
inductive Parsed where
  | ok (n : Int) (len : Nat)
  | bogus
  | tooLarge
  deriving DecidableEq, Repr

/-- An integer of 128 bits. -/
def fits128 (n : Int) : Bool := decide (-2 ^ 127 ≤ n) && decide (n < 2 ^ 127)

/-- `repeat` in `parse-integer` (`lexer.dylan:954-981`): `result` is not positive. -/
def parseDigits (radix : Nat) (stop : Bool) : List Byte → Nat → Int → Parsed
  | [], len, result => .ok result len
  | b :: l, len, result =>
    match digitValue b with
    | some d =>
      if fits128 (result * radix) && fits128 (result * radix - d) then
        parseDigits radix stop l (len + 1) (result * radix - d)
      else .tooLarge
    | none =>
      if stop then .ok result len
      else if b = code '_' then parseDigits radix stop l (len + 1) result
      else .bogus

/-- `genericnegative` of the result (`lexer.dylan:986-991`). -/
def Parsed.negate : Parsed → Parsed
  | .ok n len => if fits128 (-n) then .ok (-n) len else .tooLarge
  | p => p

/-- `parse-integer` (`lexer.dylan:945-1003`) of the text between `start` and `finish`, which is not empty. -/
def parseInteger (radix : Nat) (stop : Bool) (l : List Byte) : Parsed :=
  match l with
  | [] => .bogus
  | first :: rest =>
    if first = code '-' then parseDigits radix stop rest 1 0
    else if first = code '+' then (parseDigits radix stop rest 1 0).negate
    else (parseDigits radix stop l 0 0).negate

/-- The radix of a letter (`lexer.dylan:1016-1023`). -/
def radixOf (b : Byte) : Option Nat :=
  if b = code 'b' ∨ b = code 'B' then some 2
  else if b = code 'o' ∨ b = code 'O' then some 8
  else if b = code 'x' ∨ b = code 'X' then some 16
  else none

/-- The value of the fragment that `parse-integer-literal` makes (`lexer.dylan:1007-1037`). -/
def integerLiteral : List Byte → Parsed
  | h :: r :: l =>
    if h = code '#' then
      match radixOf r with
      | some radix => parseInteger radix false l
      | none => .bogus
    else parseInteger 10 false (h :: r :: l)
  | l => parseInteger 10 false l

/-! ### Characters -/

/-- `escape-character` (`lexer.dylan:743-758`); nothing for the error of `select`. -/
def escapeCharacter (b : Byte) : Option Byte :=
  if b = code 'a' then some 7
  else if b = code 'b' then some 8
  else if b = code 'e' then some 27
  else if b = code 'f' then some 12
  else if b = code 'n' then some 10
  else if b = code 'r' then some 13
  else if b = code 't' then some 9
  else if b = code '0' then some 0
  else if b = code '\\' then some (code '\\')
  else if b = code '\'' then some (code '\'')
  else if b = code '"' then some (code '"')
  else none

/-- A literal's value; or a serious warning; or an error of the reader itself. -/
inductive Value (α : Type) where
  | value (a : α)
  | warning
  | failed
  deriving DecidableEq, Repr

/-- `hex-escape-character` (`lexer.dylan:760-780`) and the same part of `parse-hex-escape`: a code above 255 is
    warned about. -/
def hexCode : Parsed → Value (Byte × Nat)
  | .ok n len => if n > 255 then .warning else .value (Fin.ofNat 256 n.toNat, len)
  | .bogus => .failed
  | .tooLarge => .warning

/-- `make-character-literal` (`lexer.dylan:1041-1062`) of the text of the token. -/
def characterLiteral : List Byte → Value Byte
  | _ :: c :: rest =>
    if c = code '\\' then
      match rest with
      | n :: rest' =>
        if n = code '<' then
          match hexCode (parseInteger 16 true rest') with
          | .value (b, _) => .value b
          | .warning => .warning
          | .failed => .failed
        else
          match escapeCharacter n with
          | some b => .value b
          | none => .failed
      | [] => .failed
    else .value c
  | _ => .failed

/-! ### Strings -/

/-- `process-escapes` (`lexer.dylan:856-883`) of what remains of a line; `parse-hex-escape`
    (`lexer.dylan:838-855`) reads digits up to a byte that is none, which has to be `>`. -/
def processEscapes : Nat → List Byte → Value (List Byte)
  | 0, _ => .value []
  | _ + 1, [] => .value []
  | fuel + 1, b :: l =>
    if b = code '\\' then
      match l with
      | [] => .value []
      | c :: l' =>
        if c = code '<' then
          match hexCode (parseInteger 16 true l') with
          | .value (v, len) =>
            if l'[len]? = some (code '>') then
              match processEscapes fuel (l'.drop (len + 1)) with
              | .value r => .value (v :: r)
              | x => x
            else .failed
          | .warning => .warning
          | .failed => .failed
        else
          match escapeCharacter c with
          | some v =>
            match processEscapes fuel l' with
            | .value r => .value (v :: r)
            | x => x
          | none => .failed
    else
      match processEscapes fuel l with
      | .value r => .value (b :: r)
      | x => x

/-- `find-line-break` and `split` (`lexer.dylan:801-819`, `:896`): the lines of the text. -/
def splitLines : List Byte → List (List Byte)
  | [] => [[]]
  | b :: l =>
    if b = code '\n' then [] :: splitLines l
    else if b = code '\r' then
      match l with
      | c :: l' => if c = code '\n' then [] :: splitLines l' else [] :: splitLines (c :: l')
      | [] => [[], []]
    else
      match splitLines l with
      | first :: rest => (b :: first) :: rest
      | [] => [[b]]

/-- `remove-prefix` (`lexer.dylan:820-835`); nothing for its warning. -/
def removePrefix (pre line : List Byte) : Option (List Byte) :=
  if (line.zip pre).all (fun x => x.1 == x.2) then
    some (if line.length < pre.length then [] else line.drop pre.length)
  else none

/-- `process-line` (`lexer.dylan:884-894`). -/
def processLine (escapes : Bool) (pre : List Byte) (line : List Byte) : Value (List Byte) :=
  match removePrefix pre line with
  | none => .warning
  | some l => if escapes then processEscapes l.length l else .value l

/-- `join` of the lines with newlines (`lexer.dylan:914`). -/
def joinLines (escapes : Bool) (pre : List Byte) : List (List Byte) → Value (List Byte)
  | [] => .value []
  | [l] => processLine escapes pre l
  | l :: ls =>
    match processLine escapes pre l, joinLines escapes pre ls with
    | .value a, .value b => .value (a ++ code '\n' :: b)
    | .failed, _ => .failed
    | .warning, _ => .warning
    | _, x => x

/-- `whitespace-code?` (`lexer.dylan:798-800`). -/
def allSpaces (l : List Byte) : Bool := l.all (· == code ' ')

/-- `decode-string` (`lexer.dylan:787-918`) of the text between the delimiters. -/
def decodeString (escapes : Bool) (l : List Byte) : Value (List Byte) :=
  if l.contains (code '\t') then .warning
  else
    match splitLines l with
    | [] => .failed
    | [line] => processLine escapes [] line
    | [_, _] => .warning
    | first :: rest =>
      if allSpaces (rest.getLast?.getD []) && allSpaces first then
        joinLines escapes (rest.getLast?.getD []) rest.dropLast
      else .warning

/-- `extract-string-contents` (`lexer.dylan:1142-1162`) of the text of a token: `quotes` is the count of quotes. -/
def stringContents (pre : Nat) (escapes : Bool) (quotes : Nat) (l : List Byte) : Value (List Byte) :=
  if l.length = 2 + pre then .value []
  else decodeString escapes ((l.take (l.length - quotes)).drop (quotes + pre))

/-- `make-stringish-literal` and `make-raw-string-literal` (`lexer.dylan:1111-1140`) of the text of a token. -/
def stringLiteral (b : Builder) (quotes : Nat) (l : List Byte) : Value (List Byte) :=
  match b with
  | .rawString => stringContents 2 false quotes l
  | _ => stringContents (if l.head? = some (code '#') then 1 else 0) true quotes l

end Verif.Reader
