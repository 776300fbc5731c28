import Verif.Common.Model
/-
Model of the marks before names of targets (/repo/sources/lib/jam/jam-grist.dylan), of the rule
that splits strings at characters (/repo/sources/lib/jam/jam-split.dylan) and of the split of an
environment variable that holds a list (/repo/sources/system/tokenize-variable.dylan).

Simplifications: a string is the list of its characters, a set of characters is a test, integers
are unbounded.
-/
namespace Verif.JamNames
open Verif.Common (Res splitFun copySeq)

/-- `find-key(name, curry(\==, '>'))` (`jam-grist.dylan:12`, `27`): the first position. -/
def gristEnd : List Char → Option Nat
  | [] => none
  | c :: r => if c = '>' then some 0 else (gristEnd r).map (· + 1)

/-- `extract-grist` (`jam-grist.dylan:8-21`). -/
def extractGrist (name : List Char) : List Char :=
  if name.length > 1 ∧ name[0]? = some '<' then
    match gristEnd name with
    | some e => name.take (e + 1)
    | none => []
  else []

/-- `strip-grist` (`jam-grist.dylan:23-36`). -/
def stripGrist (name : List Char) : List Char :=
  if name.length > 1 ∧ name[0]? = some '<' then
    match gristEnd name with
    | some e => name.drop (e + 1)
    | none => name
  else name

/-- `add-grist` (`jam-grist.dylan:38-47`). -/
def addGrist (old new : List Char) : List Char :=
  let oldGrist := extractGrist old
  if oldGrist = [] then new else oldGrist ++ new

/-- The set of delimiters (`jam-split.dylan:14-19`), as the test `member?` makes of it. -/
def delimiters (splitChars : List (List Char)) (c : Char) : Bool :=
  splitChars.any (fun s => s.contains c)

/-- The loop of `delimiter-splitter` (`jam-split.dylan:25-36`); the first argument bounds the
    number of rounds. A first value of `#f` is no separator, whatever the second is. -/
def splitterLoop (d : Char → Bool) (str : List Char) (endPos : Int) : Nat → Int → Option Int → Option (Int × Int)
  | 0, _, _ => none
  | k + 1, i, sepStart =>
    if i ≥ endPos then sepStart.map (fun a => (a, i))
    else
      match str[i.toNat]? with
      | none => none
      | some c =>
        if d c then splitterLoop d str endPos k (i + 1) (some (sepStart.getD i))
        else
          match sepStart with
          | some a => some (a, i)
          | none => splitterLoop d str endPos k (i + 1) none

/-- `split(str, delimiter-splitter, remove-if-empty?: #t)` (`jam-split.dylan:41`). -/
def splitString (d : Char → Bool) (str : List Char) : Res (List (List Char)) :=
  splitFun (str.length + 2) str (fun b e => splitterLoop d str e (str.length + 2) b none) 0 none none true

/-- The loop over the strings (`jam-split.dylan:40-42`). -/
def splitStrings (d : Char → Bool) : List (List Char) → List (List Char) → Res (List (List Char))
  | result, [] => .ok result
  | result, str :: strings =>
    match splitString d str with
    | .ok parts => splitStrings d (result ++ parts) strings
    | r => r

/-- `jam-builtin-split` (`jam-split.dylan:10-44`). -/
def builtinSplit (strings splitChars : List (List Char)) : Res (List (List Char)) :=
  splitStrings (delimiters splitChars) [] strings

/-- `collect-string` (`tokenize-variable.dylan:17-22`), without the change of `old-pos`; `none` if
    the positions are out of bounds. -/
def collectString (var : List Char) (pos oldPos : Nat) (strings : List (List Char)) : Option (List (List Char)) :=
  if pos = oldPos then some strings
  else (copySeq var oldPos pos).map (fun s => strings ++ [s])

/-- The loop of `tokenize-environment-variable` (`tokenize-variable.dylan:23-29`) over the characters
    from `pos` on, with the call of `collect-string` after it. -/
def tokenizeLoop (delim : Char) (var : List Char) : List Char → Nat → Nat → List (List Char) → Option (List (List Char))
  | [], pos, oldPos, strings => collectString var pos oldPos strings
  | c :: r, pos, oldPos, strings =>
    if c = delim then
      match collectString var pos oldPos strings with
      | some strings => tokenizeLoop delim var r (pos + 1) (pos + 1) strings
      | none => none
    else tokenizeLoop delim var r (pos + 1) oldPos strings

/-- `tokenize-environment-variable` (`tokenize-variable.dylan:11-30`); `delim` is
    `$environment-variable-delimiter`. -/
def tokenize (delim : Char) (var : List Char) : Option (List (List Char)) :=
  tokenizeLoop delim var var 0 0 []

end Verif.JamNames
