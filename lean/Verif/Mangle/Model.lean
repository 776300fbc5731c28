import Mathlib.Data.Fin.Basic
/-
Model of the name mangler (`sources/dfmc/mangling/mangling.dylan`), of the Dylan demangler
(`sources/dfmc/mangling/demangling.dylan`), and of the C demangler of the run-time
(`sources/lib/run-time/demangle.c`).  Names are strings of byte characters.  Lowercasing of symbols
(mangling.dylan 238-241) happens before and is not modelled: names are given as they are mangled.
-/
namespace Verif.Mangle

/-- A byte, or byte character. -/
abbrev Byte := Fin 256

/-- The code of a character. -/
def code (c : Char) : Byte := Fin.ofNat 256 c.toNat

/-- A string constant. -/
def str (l : List Char) : List Byte := l.map code

/-! ### The mangler -/

/-- `$mangles-data` (mangling.dylan 79-85). -/
def manglesData : List (Byte × Byte) :=
  [('-', '_'), ('!', 'X'), ('$', 'D'), ('%', 'P'), ('*', 'T'), ('/', 'S'), ('<', 'L'), ('>', 'G'), ('?', 'Q'),
   ('+', 'A'), ('&', 'B'), ('^', 'C'), ('_', 'U'), ('@', 'O'), ('=', 'E'), ('~', 'N'), ('#', 'M'), (',', 'H')].map
    (fun (a, b) => (code a, code b))

/-- `$number-characters[remainder]` (mangling.dylan 303). -/
def digit (r : Nat) : Byte := Fin.ofNat 256 (48 + r)

/-- `process-integer` of `mangle-integer` (mangling.dylan 307-321), for numbers from 0 on: the result is
a string of the right size whose first characters are set.  A fresh `<byte-string>` is filled with
spaces. -/
def processInteger (number index : Nat) : List Byte :=
  if h : number / 10 = 0 then (List.replicate index (code ' ')).set 0 (digit (number % 10))
  else
    let result := processInteger (number / 10) (index + 1)
    result.set (result.length - index) (digit (number % 10))
termination_by number
decreasing_by omega

/-- `mangle-integer` (mangling.dylan 305-322). -/
def mangleInteger (number : Nat) : List Byte := processInteger number 1

/-- Letters and digits that stand for themselves (mangling.dylan 163-169). -/
def plain (c : Byte) : Bool :=
  (decide (code 'a' ≤ c) && decide (c ≤ code 'z')) || (decide (code '0' ≤ c) && decide (c ≤ code '9'))

/-- An entry of the mangler table (`initialize-mangler-table`, mangling.dylan 151-170): the later
assignments take precedence. -/
def mangleByte (c : Byte) : List Byte :=
  if plain c then [c]
  else
    match manglesData.lookup c with
    | some m => [m]
    | none => code 'Z' :: (mangleInteger c ++ [code 'Z'])

/-- `mangle-name-into` (mangling.dylan 231-236). -/
def mangleName (name : List Byte) : List Byte := name.flatMap mangleByte

/-- `$mangle-dylan-module` (mangling.dylan 53-62). -/
def dylanModules : List (List Byte × Byte) :=
  [(str ['d', 'y', 'l', 'a', 'n'], code 'd'),
   (str ['i', 'n', 't', 'e', 'r', 'n', 'a', 'l'], code 'i'),
   (str ['d', 'y', 'l', 'a', 'n', '-', 'p', 'r', 'i', 'm', 'i', 't', 'i', 'v', 'e', 's'], code 'p'),
   (str ['d', 'y', 'l', 'a', 'n', '-', 'e', 'x', 't', 'e', 'n', 's', 'i', 'o', 'n', 's'], code 'e'),
   (str ['d', 'y', 'l', 'a', 'n', '-', 'c', '-', 'f', 'f', 'i'], code 'c'),
   (str ['d', 'y', 'l', 'a', 'n', '-', 'i', 'n', 'c', 'r', 'e', 'm', 'e', 'n', 't', 'a', 'l'], code 'n'),
   (str ['d', 'y', 'l', 'a', 'n', '-', 't', 'h', 'r', 'e', 'a', 'd', 's'], code 't'),
   (str ['d', 'i', 's', 'p', 'a', 't', 'c', 'h', '-', 'e', 'n', 'g', 'i', 'n', 'e'], code 'g'),
   (str ['m', 'a', 'c', 'h', 'i', 'n', 'e', '-', 'w', 'o', 'r', 'd', '-', 'l', 'o', 'w', 'l', 'e', 'v', 'e', 'l'],
     code 'm')]

/-- The name of the library `dylan`. -/
def dylanName : List Byte := str ['d', 'y', 'l', 'a', 'n']

/-- `non-dylan-mangle` (mangling.dylan 278-285). -/
def nonDylan (modName libName : List Byte) : List Byte :=
  (if modName = libName then [] else code 'Y' :: mangleName modName) ++ code 'V' :: mangleName libName

/-- `mangle-namespace-spread-into` (mangling.dylan 276-299).  Names are compared as byte strings: the
comparison as symbols, which ignores case, is the same for names without capital letters. -/
def mangleNamespace (modName libName : List Byte) : List Byte :=
  if libName = dylanName then
    match dylanModules.lookup modName with
    | some abbreviation => [code 'V', code 'K', abbreviation]
    | none => nonDylan modName libName
  else nonDylan modName libName

/-- `mangle-binding-spread` (mangling.dylan 267-274), and the `global-mangle` methods of
dfmc/back-end/mangle.dylan 64-108. -/
def mangleBinding (varName modName libName : List Byte) : List Byte :=
  mangleName varName ++ mangleNamespace modName libName

/-- `mangle-constant` (mangling.dylan 327-329). -/
def mangleConstant (name : List Byte) : List Byte := code 'K' :: name

/-- `mangle-symbol` of a locally mangled name (mangling.dylan 331-333, 250-256; back-end/emit-object.dylan 84-98). -/
def mangleSymbol (name : List Byte) : List Byte := code 'K' :: code 'J' :: (mangleName name ++ [code '_'])

/-- `mangle-generic-method` (mangling.dylan 335-350). -/
def mangleGenericMethod (name : List Byte) (number : Nat) (methodLib genericLib : List Byte) : List Byte :=
  code 'K' :: (name ++ code 'M' :: ((if genericLib = methodLib then [] else mangleName methodLib) ++
    code 'M' :: mangleInteger number))

/-- `mangle-local-method` (mangling.dylan 352-358). -/
def mangleLocalMethod (name : List Byte) (number : Nat) : List Byte :=
  code 'K' :: (name ++ code 'F' :: mangleInteger number)

/-- `mangle-domain` (mangling.dylan 360-368). -/
def mangleDomain (name : List Byte) (number : Nat) (libName : List Byte) : List Byte :=
  code 'K' :: (name ++ str ['R', 'D', '_'] ++ libName ++ str ['R', 'D', '_'] ++ mangleInteger number)

/-- `mangle-slot-descriptor` (mangling.dylan 370-391); `none` is an absent slot library (#f). -/
def mangleSlotDescriptor (slotName : List Byte) (slotLib : Option (List Byte))
    (ownerName ownerModule ownerLib : List Byte) : List Byte :=
  if slotLib = some ownerLib then code 'K' :: (slotName ++ code 'H' :: ownerName)
  else code 'K' :: (slotName ++ code 'H' :: (ownerName ++ mangleNamespace ownerModule ownerLib))

/-- `mangle-wrapper` (mangling.dylan 393-395). -/
def mangleWrapper (name : List Byte) : List Byte := code 'K' :: (name ++ [code 'W'])

/-! ### The Dylan demangler -/

/-- Is it a digit (demangling.dylan 67-68)? -/
def isDigit (c : Byte) : Bool := decide (code '0' ≤ c) && decide (c ≤ code '9')

/-- `read-next` of `demangle-escape` (demangling.dylan 65-75): the code and the rest. -/
def readNext : List Byte → Nat → Nat × List Byte
  | [], v => (v, [])
  | c :: rest, v => if isDigit c then readNext rest (v * 10 + (c.val - 48)) else (v, c :: rest)

/-- `demangle-escape` (demangling.dylan 60-82), on what follows the escape marker.  A code that is not a
byte character cannot be stored in the result string: no result. -/
def demangleEscape (rest : List Byte) : Option (Byte × List Byte) :=
  let (v, rest) := readNext rest 0
  if h : v < 256 then
    match rest with
    | c :: tail => if c = code 'Z' then some (⟨v, h⟩, tail) else some (⟨v, h⟩, c :: tail)
    | [] => some (⟨v, h⟩, [])
  else none

/-- An entry of the demangler table that is a character (demangling.dylan 27-46). -/
def demangleByte (c : Byte) : Option Byte :=
  if plain c then some c else (manglesData.map (fun (a, b) => (b, a))).lookup c

/-- `default-demangler-handler-function` (demangling.dylan 84-93). -/
def defaultHandler (c : Byte) : List Byte :=
  if c = code 'K' ∨ c = code 'I' ∨ c = code 'J' ∨ c = code '_' ∨ c = code 'W' then [] else [c]

/-- `demangle-name-into` and `demangle-name-raw` (demangling.dylan 95-126) with the default handler, at
most `fuel` rounds; `none` when they do not suffice or an escaped code is too large. -/
def demangleLoop : Nat → List Byte → Option (List Byte)
  | _, [] => some []
  | 0, _ :: _ => none
  | fuel + 1, c :: rest =>
    match demangleByte c with
    | some d => (demangleLoop fuel rest).map (d :: ·)
    | none =>
      if c = code 'Z' then
        match demangleEscape rest with
        | none => none
        | some (d, rest) => (demangleLoop fuel rest).map (d :: ·)
      else (demangleLoop fuel rest).map (defaultHandler c ++ ·)

/-- `demangle-name-raw` (demangling.dylan 118-126). -/
def demangleName (name : List Byte) : Option (List Byte) := demangleLoop name.length name

/-- `find-key(name, marker-id?)`. -/
def findMark (mark : Byte) (name : List Byte) : Option Nat := name.findIdx? (· == mark)

/-- The module separator, if there is one before the library separator (demangling.dylan 160-161). -/
def moduleSep (name : List Byte) (lsep : Nat) : Option Nat :=
  match findMark (code 'Y') name with
  | some m => if lsep > m then some m else none
  | none => none

/-- `demangle-binding-spread` (demangling.dylan 151-192). -/
def demangleBinding (name : List Byte) : Option (List Byte × Option (List Byte) × Option (List Byte)) :=
  let bindingEnd := (findMark (code 'M') name).getD name.length
  let whole := do
    let v ← demangleName name
    some (v, none, none)
  match findMark (code 'V') name with
  | none => whole
  | some lsep =>
    if bindingEnd > lsep + 1 then
      match moduleSep name lsep with
      | some msep => do
        let v ← demangleName (name.take msep)
        let m ← demangleName ((name.take lsep).drop (msep + 1))
        let l ← demangleName ((name.take bindingEnd).drop (lsep + 1))
        some (v, some m, some l)
      | none =>
        if name[lsep + 1]? = some (code 'K') then do
          let l ← demangleName dylanName
          let short ← name[lsep + 2]?
          let m ← (dylanModules.map (fun (a, b) => (b, a))).lookup short
          let v ← demangleName (name.take lsep)
          some (v, some m, some l)
        else do
          let l ← demangleName ((name.take bindingEnd).drop (lsep + 1))
          let v ← demangleName (name.take lsep)
          some (v, some l, some l)
    else whole

/-- `demangler-extract-callable-object-name` (demangling.dylan 298-309). -/
def callableName (name : List Byte) : List Byte :=
  if name.getLast? = some (code 'I') then name.dropLast else name

/-- `demangler-extract-method-details` (demangling.dylan 242-271): the library and the number. -/
def methodDetails (name : List Byte) : Option (Option (List Byte) × List Byte) :=
  let cname := callableName name
  match findMark (code 'M') cname with
  | none => some (none, str ['0'])
  | some mm =>
    let detail := cname.drop (mm + 1)
    match findMark (code 'M') detail with
    | none => some (none, str ['0'])
    | some mm2 => do
      let lib ← (if detail.take mm2 = [] then (demangleBinding cname).map (fun (_, _, l) => l)
        else some (some (detail.take mm2)))
      match lib with
      | none => some (none, detail.drop (mm2 + 1))
      | some l => do
        let l ← demangleName l
        some (some l, detail.drop (mm2 + 1))

/-! ### The C demangler -/

/-- Outcomes of `dylan_demangle`: returned 0 with these bytes in the destination, returned -1, a read
behind the end of the source, a table access with an index out of range, a write behind the end of the
destination, or too few rounds given. -/
inductive Out
  | ok (dest : List Byte)
  | fail
  | readPast
  | badIndex
  | writePast
  | diverge
  deriving DecidableEq, Repr

/-- `demangle_map` (demangle.c 36-49); 0 is an absent entry. -/
def demangleMap (c : Byte) : Byte :=
  if plain c then c
  else (([('-', '_'), ('!', 'X'), ('$', 'D'), ('%', 'P'), ('*', 'T'), ('/', 'S'), ('<', 'L'), ('>', 'G'), ('?', 'Q'),
    ('+', 'A'), ('&', 'B'), ('^', 'C'), ('_', 'U'), ('@', 'O'), ('=', 'E'), ('~', 'N')].map
      (fun (a, b) => (code b, code a))).lookup c).getD 0

/-- The local variables of the loop: what has been written to the destination, the position `library`
points to (if not NULL), and `module_seen`. -/
structure CState where
  out : List Byte
  library : Option Nat
  moduleSeen : Bool

/-- A loop `while (*s && dest < limit) *dest++ = *s++` (demangle.c 86-92, 118-120). -/
def copyString (limit : Nat) : List Byte → List Byte → List Byte
  | out, [] => out
  | out, x :: xs => if out.length < limit then copyString limit (out ++ [x]) xs else out

/-- The digits of an escape (demangle.c 66-69): the value, modulo 2^32 as `unsigned`, and the rest. -/
def cDigits : List Byte → Nat → Nat × List Byte
  | [], v => (v, [])
  | c :: rest, v => if isDigit c then cDigits rest ((v * 10 + (c.val - 48)) % 2 ^ 32) else (v, c :: rest)

/-- The length of `dylan_abbrev_map`, whose last entry is for 't' (demangle.c 25-35). -/
def abbrevLength : Nat := 117

/-- The end of the function (demangle.c 134-135): a write at the current position. -/
def cFinish (size : Nat) (out : List Byte) : Out :=
  if out.length < size then .ok (out ++ [0]) else .writePast

/-- The main loop (demangle.c 55-132), at most `fuel` rounds.  `src` is the rest of the source without its
terminating NUL; `signed` says whether `char` is a signed type.  The limit is `size - 1`. -/
def cLoop (signed : Bool) (size : Nat) : Nat → List Byte → CState → Out
  | 0, _, _ => .diverge
  | fuel + 1, src, st =>
    match src with
    | [] => cFinish size st.out
    | c :: src =>
      if c = 0 ∨ ¬ st.out.length < size - 1 then cFinish size st.out
      else if signed = true ∧ c.val ≥ 128 then .badIndex
      else if demangleMap c ≠ 0 then cLoop signed size fuel src { st with out := st.out ++ [demangleMap c] }
      else if c = code 'Z' then
        let (value, rest) := cDigits src 0
        match rest with
        | z :: rest =>
          if z = code 'Z' then
            cLoop signed size fuel rest { st with out := st.out ++ [Fin.ofNat 256 value] }
          else .fail
        | [] => .fail
      else if c = code 'K' then
        match src with
        | [] => .readPast
        | a :: src =>
          if (signed = true ∧ a.val ≥ 128) ∨ a.val ≥ abbrevLength then .fail
          else
            let out := match (dylanModules.map (fun (a, b) => (b, a))).lookup a with
              | some m => copyString (size - 1) (copyString (size - 1) st.out m)
                  (str [':', 'd', 'y', 'l', 'a', 'n'])
              | none => st.out
            cLoop signed size fuel src { st with out := out, moduleSeen := true }
      else if c = code 'Y' then
        cLoop signed size fuel src { st with out := st.out ++ [code ':'], moduleSeen := true }
      else if c = code 'V' then
        cLoop signed size fuel src { st with out := st.out ++ [code ':'], library := some st.out.length }
      else if c = code 'M' ∨ c = code 'I' then
        let st := match st.moduleSeen, st.library with
          | false, some l =>
            { st with out := copyString (size - 1) st.out (st.out.drop l), moduleSeen := true }
          | _, _ => st
        if c = code 'M' then
          if st.out.length < size then cLoop signed size fuel src { st with out := st.out ++ [code '#'] }
          else .writePast
        else cLoop signed size fuel src st
      else .fail

/-- `dylan_demangle` (demangle.c 18-136) on a destination of `size` bytes. -/
def cDemangle (signed : Bool) (size : Nat) (src : List Byte) : Out :=
  if size = 0 then .fail
  else
    let src := match src with
      | c :: rest => if c = code 'K' then rest else src
      | [] => src
    cLoop signed size (src.length + 1) src { out := [], library := none, moduleSeen := false }

end Verif.Mangle
