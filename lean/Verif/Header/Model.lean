/-!
# The headers of source files

`sources/lib/source-records/header-reader.dylan` (HR), `cache-file-header-data` of
`sources/lib/source-records/flat-file-source-records.dylan` (FF) and `read-line` of `sources/io/streams/convenience.dylan` (CV).

Simplifications: a stream is given by the characters that are still to be read; a symbol is the string of its characters in lower
case; the table is a function to the list of strings, which is empty where there is no entry; a signal of a badly formed header
ends the reading, as it does in `read-file-header` (HR:15-26), and gives `none`.  `strip` is from a library that is not in the
repository: it removes the characters that meet the test from both ends.
-/

namespace Verif.Header

/-- What `read-line` returns, and the rest of the stream. -/
structure Got where
  line : List Char
  newline : Bool
  rest : List Char
  deriving DecidableEq, Repr

/-- `read-line` with `on-end-of-stream: ""` (CV:127-154). -/
def readLine : List Char → Got
  | [] => ⟨[], false, []⟩
  | '\n' :: r => ⟨[], true, r⟩
  | '\r' :: '\n' :: r => ⟨[], true, r⟩
  | '\r' :: r => ⟨[], true, r⟩
  | c :: r => ⟨c :: (readLine r).line, (readLine r).newline, (readLine r).rest⟩

/-- `header-whitespace?` (HR:90-92). -/
def white (c : Char) : Bool := c == ' ' || c == '\t'

/-- `header-end-marker-line?` (HR:98-100). -/
def endMarker (line : List Char) : Bool := line.all white

/-- `strip`. -/
def strip (line : List Char) : List Char := ((line.dropWhile white).reverse.dropWhile white).reverse

/-- `as(<symbol>, string)`. -/
def symbol (s : List Char) : List Char := s.map Char.toLower

/-- `parse-header-keyword-line` (HR:79-87). -/
def parseKeyword (line : List Char) : Option (List Char × List Char) :=
  if ':' ∈ line then
    some (symbol (line.takeWhile (· ≠ ':')), strip ((line.dropWhile (· ≠ ':')).drop 1))
  else none

/-- `parse-header-continuation-line` (HR:94-96). -/
def parseContinuation (line : List Char) : List Char := strip line

/-- The strings, the number of lines, whether the header ends, and the rest of the stream. -/
structure Tail where
  strings : List (List Char)
  lines : Nat
  eoh : Bool
  rest : List Char

/-- The loop over continuation lines (HR:60-75).  The first argument bounds the rounds; the rest of the stream gets shorter in
each. -/
def contLoop : Nat → List (List Char) → Nat → List Char → Tail
  | 0, texts, n, rest => ⟨texts.reverse, n, false, rest⟩
  | _ + 1, texts, n, [] => ⟨texts.reverse, n, false, []⟩
  | fuel + 1, texts, n, c :: r =>
    if white c then
      let got := readLine r
      let n' := if got.newline then n + 1 else n
      if endMarker got.line then ⟨texts.reverse, n', true, got.rest⟩
      else contLoop fuel (parseContinuation got.line :: texts) n' got.rest
    else ⟨texts.reverse, n, false, c :: r⟩

/-- `read-file-header-component` (HR:52-77): the key, if there is one, and the rest; or `none` for a signal. -/
def component (rest : List Char) : Option (Option (List Char) × Tail) :=
  let got := readLine rest
  let n := if got.newline then 1 else 0
  if endMarker got.line then some (none, ⟨[], n, true, got.rest⟩)
  else (parseKeyword got.line).map fun kt => (some kt.1, contLoop (rest.length + 1) [kt.2] n got.rest)

/-- `$unique-header-keywords` (HR:28). -/
def unique : List (List Char) := ["module".toList, "language".toList]

/-- The table. -/
abbrev Keys := List Char → List (List Char)

/-- `keys[key] := concatenate!(old-strings, strings)` (HR:41). -/
def put (keys : Keys) (key : List Char) (strings : List (List Char)) : Keys :=
  fun k => if k = key then keys key ++ strings else keys k

/-- What is done with a component (HR:35-42). -/
def enter (keys : Keys) : Option (List Char) → List (List Char) → Option Keys
  | none, _ => some keys
  | some key, strings => if keys key ≠ [] ∧ key ∈ unique then none else some (put keys key strings)

/-- The loop of `read-header-from-stream` (HR:33-49).  The first argument bounds the rounds; the rest of the stream gets shorter
in each. -/
def readLoop : Nat → Keys → Nat → List Char → Option (Keys × Nat × List Char)
  | 0, _, _, _ => none
  | fuel + 1, keys, n, rest =>
    match component rest with
    | none => none
    | some (key, t) =>
      match enter keys key t.strings with
      | none => none
      | some keys' => if t.eoh then some (keys', n + t.lines, t.rest) else readLoop fuel keys' (n + t.lines) t.rest

/-- `read-header-from-stream` (HR:30-50) of a stream at the start of a file: the table, the number of lines, and the position of
the stream. -/
def readHeader (file : List Char) : Option (Keys × Nat × Nat) :=
  (readLoop (file.length + 1) (fun _ => []) 0 file).map fun r => (r.1, r.2.1, file.length - r.2.2.length)

/-- The language of a source record (FF:241-259). -/
def languageName (strings : List (List Char)) : Option (List Char) :=
  match strings with
  | [] => some "infix-dylan".toList
  | s :: more => if s = [] then none else if more ≠ [] then none else some s

/-- The module and the language, given the strings of both (FF:226-260). -/
def dataOf (lines : Nat) (modules languages : List (List Char)) : Option (Nat × List Char × List Char) :=
  match modules with
  | [] => none
  | m :: _ => if m = [] then none else (languageName languages).map fun l => (lines, symbol m, symbol l)

/-- `cache-file-header-data` (FF:222-261): the line where the source starts, the module and the language. -/
def headerData (file : List Char) : Option (Nat × List Char × List Char) :=
  (readHeader file).bind fun r => dataOf r.2.1 (r.1 "module".toList) (r.1 "language".toList)

end Verif.Header
