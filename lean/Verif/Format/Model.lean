import Verif.IntString.Model

/-
Model of `format` and `format-to-string` of the io library
(sources/io/format.dylan) and of `format-to-string` of the common-dylan library
(sources/common-dylan/format.dylan:51-111).

Modelled: what is written to the stream, in order, and the errors.  A newline of
the stream is one character.  Not modelled: what printing an object writes
(an arbitrary text for every object), and errors in functions that are called.
-/

namespace Verif.Format
open Verif.IntString (fits integerToCharacter asLowercase integerToString)

/-- An argument of `format`. -/
inductive Arg where
  /-- An `<integer>`. -/
  | int (n : Int)
  /-- A float, and a `<double-integer>`: numbers that print themselves. -/
  | float (id : Nat)
  | big (id : Nat)
  | string (s : List Char)
  | char (c : Char)
  /-- A symbol, by the string it was made from. -/
  | symbol (s : List Char)
  /-- A function, by what it writes when called with a stream. -/
  | func (s : List Char)
  | false
  /-- Any other object. -/
  | other (id : Nat)
deriving DecidableEq

/-- What `print-object` writes, with `*print-escape?*` true and false. -/
structure Printer where
  object : Arg → List Char
  plain : Arg → List Char

/-- Errors. -/
inductive Err where
  /-- Element outside of the string. -/
  | range
  /-- "Unknown format dispatch character" and "Invalid format directive". -/
  | unknown (c : Char)
  /-- No method of `format-integer`, or not a function, or a radix other than ten. -/
  | argument
  /-- Integer overflow. -/
  | overflow
  /-- Too few arguments, an argument of the wrong class, a percent sign at the end
      (common-dylan only). -/
  | tooFew
  | wrongClass
  | incomplete
  /-- Never: the loop has come to the end of its rounds. -/
  | rounds
deriving DecidableEq

/-- What has been written, and the error that ended the call. -/
structure Res where
  out : List Char
  err : Option Err
deriving DecidableEq

/-! ### io -/

/-- `print-message`, io/format.dylan:64-98. -/
def printMessage (p : Printer) : Arg → List Char
  | .string s => s
  | .char c => [c]
  | .symbol s => s
  | a => p.plain a

/-- The local method `repeat` of `format-integer`, io/format.dylan:283-294.  `none`: out of
    rounds.  `$digits` (line 261) is the same string as `$number-characters`. -/
def repeatDigits (radix : Int) : Nat → Int → List Char → Option (List Char)
  | 0, _, _ => none
  | fuel + 1, n, digits =>
    let digits := integerToCharacter (n.fmod radix) :: digits
    if n.fdiv radix = 0 then some digits else repeatDigits radix fuel (n.fdiv radix) digits

/-- The method of `format-integer` for `<integer>`, io/format.dylan:277-314. -/
def formatInt (n radix : Int) (lowercase : Bool) : Option (List Char) :=
  let lower := fun c => if lowercase then asLowercase c else c
  if n < 0 then
    let q := n.tdiv radix
    let r := n.tmod radix
    if q = 0 then some ['-', lower (integerToCharacter (-r))]
    else (repeatDigits radix 62 (-q) [integerToCharacter (-r)]).map (fun ds => '-' :: ds.map lower)
  else (repeatDigits radix 62 n []).map (fun ds => ds.map lower)

/-- `format-integer`, io/format.dylan:270-323: the method for `<double-integer>` does not look at
    the radix. -/
def formatInteger (p : Printer) (a : Arg) (radix : Int) (lowercase : Bool) : Except Err (List Char) :=
  match a with
  | .int n =>
    match formatInt n radix lowercase with
    | some t => .ok t
    | none => .error .rounds
  | .big _ => .ok (p.object a)
  | .float _ => if radix = 10 then .ok (p.object a) else .error .argument
  | _ => .error .argument

/-- `%m`, io/format.dylan:220-222. -/
def callArg : Arg → Except Err (List Char)
  | .func s => .ok s
  | _ => .error .argument

/-- `do-dispatch`, io/format.dylan:194-229: what is written, and whether the argument is used up. -/
def doDispatch (p : Printer) (c : Char) (a : Arg) : Except Err (List Char × Bool) :=
  if c = 's' ∨ c = 'S' ∨ c = 'c' ∨ c = 'C' then .ok (printMessage p a, true)
  else if c = '=' then .ok (p.object a, true)
  else if c = 'd' ∨ c = 'D' then (formatInteger p a 10 false).map (·, true)
  else if c = 'b' ∨ c = 'B' then (formatInteger p a 2 false).map (·, true)
  else if c = 'o' ∨ c = 'O' then (formatInteger p a 8 false).map (·, true)
  else if c = 'x' then (formatInteger p a 16 true).map (·, true)
  else if c = 'X' then (formatInteger p a 16 false).map (·, true)
  else if c = 'm' ∨ c = 'M' then (callArg a).map (·, true)
  else if c = '%' then .ok (['%'], false)
  else .error (.unknown c)

/-- `char-classes`, io/format.dylan:107-113: digits, and the minus sign. -/
def digitClass (c : Char) : Bool := decide (('0'.toNat ≤ c.toNat ∧ c.toNat ≤ '9'.toNat) ∨ c = '-')

/-- The loop of `parse-integer`, io/format.dylan:245-250; `none`: overflow. -/
def fieldLoop : List Char → Int → Option (Int × List Char)
  | [], result => some (result, [])
  | c :: cs, result =>
    if digitClass c then
      let d : Int := (c.toNat : Int) - ('0'.toNat : Int)
      if fits (result * 10) && fits (result * 10 + d) then fieldLoop cs (result * 10 + d) else none
    else some (result, c :: cs)

/-- `parse-integer`, io/format.dylan:239-258, on the rest of the string from the index: the field
    and the rest, or `none` for the field if there is none. -/
def parseInteger (cs : List Char) : Option (Option Int × List Char) :=
  let negative := cs.head? = some '-'
  let from_ := if negative then cs.tail else cs
  match fieldLoop from_ 0 with
  | none => none
  | some (result, rest) =>
    if result = 0 then some (none, from_)
    else some (some (if negative then -result else result), rest)

/-- The padding, io/format.dylan:162-174. -/
def pad (field : Int) (output : List Char) : List Char :=
  let padding := (field.natAbs : Int) - output.length
  if padding < 0 then output
  else if field > 0 then List.replicate padding.toNat ' ' ++ output
  else output ++ List.replicate padding.toNat ' '

/-- "Skip to dispatch char", io/format.dylan:129-132: the text and the rest. -/
def skipTo : List Char → List Char × List Char
  | [] => ([], [])
  | c :: cs =>
    if c = '%' ∨ c = '\n' then ([], c :: cs)
    else (c :: (skipTo cs).1, (skipTo cs).2)

/-- `element(args, arg-i, default: #f)`, io/format.dylan:159 and 178. -/
def argument (args : List Arg) : Arg := args.head?.getD .false

/-- The test of io/format.dylan:148. -/
def startsField : List Char → Bool
  | [] => Bool.false
  | c :: _ => digitClass c

/-- "Parse for field", io/format.dylan:147-150. -/
def parseField (rest : List Char) : Option (Option Int × List Char) :=
  if startsField rest then parseInteger rest else some (none, rest)

/-- One directive, io/format.dylan:146-182, on the rest of the string behind the percent sign:
    what is written, the arguments and the string that are left. -/
def directive (p : Printer) (rest : List Char) (args : List Arg) :
    Except Err (List Char × List Arg × List Char) :=
  match rest with
  | [] => .error .range
  | d :: ds =>
    match parseField rest with
    | none => .error .overflow
    | some (some field, after) =>
      match after with
      | [] => .error .range
      | d' :: ds' => (doDispatch p d' (argument args)).map
          (fun o => (pad field o.1, if o.2 then args.tail else args, ds'))
    | some (none, _) => (doDispatch p d (argument args)).map
          (fun o => (o.1, if o.2 then args.tail else args, ds))

/-- The loop of `format`, io/format.dylan:127-184. -/
def formatLoop (p : Printer) : Nat → List Char → List Arg → List Char → Res
  | 0, cs, _, out => ⟨out, if cs.isEmpty then none else some .rounds⟩
  | fuel + 1, cs, args, out =>
    if cs.isEmpty then ⟨out, none⟩
    else
      match (skipTo cs).2 with
      | [] => ⟨out ++ (skipTo cs).1, none⟩
      | c :: rest =>
        if c = '\n' then formatLoop p fuel rest args (out ++ (skipTo cs).1 ++ ['\n'])
        else
          match directive p rest args with
          | .error e => ⟨out ++ (skipTo cs).1, some e⟩
          | .ok (o, args', rest') => formatLoop p fuel rest' args' (out ++ (skipTo cs).1 ++ o)

/-- `format`, io/format.dylan:120-186: every round takes one character or more. -/
def format (p : Printer) (control : List Char) (args : List Arg) : Res :=
  formatLoop p control.length control args []

/-! ### common-dylan -/

/-- What the printing functions of common-dylan write: `print-pretty-name`, `print-unique-name`
    and `number-to-string`. -/
structure Names where
  pretty : Arg → List Char
  unique : Arg → List Char
  number : Arg → List Char

/-- `instance?(argument, <number>)` and so on. -/
def isNumber : Arg → Bool
  | .int _ => true
  | .float _ => true
  | .big _ => true
  | _ => Bool.false

/-- `integer-to-string`, common-dylan/format.dylan:257-301, with the base and nothing else. -/
def intText (n base : Int) : Except Err (List Char) :=
  match integerToString n base 0 '0' Bool.false with
  | some (.ok t) => .ok t
  | _ => .error .rounds

/-- `number-to-string`, common-dylan/format.dylan:478-494. -/
def numberText (p : Names) : Arg → Except Err (List Char)
  | .int n => intText n 10
  | a => .ok (p.number a)

/-- `integer-to-string(argument(char, <integer>), base:)`. -/
def integerArg (a : Arg) (base : Int) : Except Err (List Char) :=
  match a with
  | .int n => intText n base
  | _ => .error .wrongClass

/-- `collect-character(argument(char, <character>))`. -/
def charArg : Arg → Except Err (List Char)
  | .char c => .ok [c]
  | _ => .error .wrongClass

/-- `as-uppercase` of a character, dylan/character.dylan:33-41. -/
def asUppercase (c : Char) : Char :=
  if 0x61 ≤ c.toNat ∧ c.toNat ≤ 0x7A then Char.ofNat (c.toNat - 0x20) else c

/-- The local method `argument`, common-dylan/format.dylan:58-70, and what is done with it. -/
def withArg (args : List Arg) (f : Arg → Except Err (List Char)) : Except Err (List Char × List Arg) :=
  match args with
  | [] => .error .tooFew
  | a :: args => (f a).map (·, args)

/-- The `select` of `print-format`, common-dylan/format.dylan:79-91. -/
def select (p : Names) (c : Char) (args : List Arg) : Except Err (List Char × List Arg) :=
  let u := asUppercase c
  if u = 'D' then withArg args (fun a => if isNumber a then numberText p a else .error .wrongClass)
  else if u = 'B' then withArg args (integerArg · 2)
  else if u = 'O' then withArg args (integerArg · 8)
  else if u = 'X' then withArg args (integerArg · 16)
  else if u = 'C' then withArg args charArg
  else if u = 'S' then withArg args (fun a => .ok (p.pretty a))
  else if u = '=' then withArg args (fun a => .ok (p.unique a))
  else if u = '%' then .ok (['%'], args)
  else .error (.unknown c)

/-- The loop of `print-format`, common-dylan/format.dylan:77-102. -/
def printLoop (p : Names) : Bool → List Char → List Arg → List Char → Res
  | found, [], _, out => ⟨out, if found then some .incomplete else none⟩
  | true, c :: cs, args, out =>
    match select p c args with
    | .error e => ⟨out, some e⟩
    | .ok (o, args') => printLoop p Bool.false cs args' (out ++ o)
  | Bool.false, c :: cs, args, out =>
    if c = '%' then printLoop p true cs args out
    else printLoop p Bool.false cs args (out ++ [c])

/-- `print-format`, common-dylan/format.dylan:51-103; `format-to-string`, lines 105-111, gives the
    contents of the buffer if there is no error. -/
def printFormat (p : Names) (control : List Char) (args : List Arg) : Res :=
  printLoop p Bool.false control args []

end Verif.Format
