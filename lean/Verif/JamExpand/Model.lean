/-!
# Expansion of variables in arguments of build rules

`jam-expand-arg` in `sources/lib/jam/jam-evaluator.dylan` (JE).

Simplifications: a string and its set of markers are one list of characters with a mark each, which says whether the character was
written in the argument or comes from the value of a variable; a part of a string between two indices is a list of its own.  What the
modifiers after `:` and the selections in brackets do (JE:153-348, 355-407) is any function.
-/

namespace Verif.JamExpand

/-- A character and whether it is in the markers. -/
abbrev MC := Char × Bool

/-- The search for `$(` (JE:53-56): what comes before and after it. -/
def splitDollar : List MC → Option (List MC × List MC)
  | [] => none
  | c :: s =>
    if c.1 = '$' ∧ (s.head?.map Prod.fst) = some '(' then some ([], s.tail)
    else (splitDollar s).map fun r => (c :: r.1, r.2)

/-- The search for the parenthesis that closes (JE:57-89), at a depth: what comes before and, if there is one, after it. -/
def splitClose : Nat → List MC → List MC × Option (List MC)
  | _, [] => ([], none)
  | d, c :: s =>
    if c.1 = ')' then
      if d = 1 then ([], some s)
      else (c :: (splitClose (d - 1) s).1, (splitClose (d - 1) s).2)
    else if c.1 = '(' then (c :: (splitClose (d + 1) s).1, (splitClose (d + 1) s).2)
    else (c :: (splitClose d s).1, (splitClose d s).2)

/-- The state: `jam-variable` (`sources/lib/jam/jam-state.dylan` 54-59), with `none` for a variable that is not set, and what the functions for modifiers and selections return for the contents of a variable and the rest
of the text in the parentheses. -/
structure State where
  var : List Char → Option (List (List Char))
  colon : Option (List (List Char)) → List MC → List (List Char)
  bracket : List (List Char) → List MC → List (List Char)

/-- The contents of the text in parentheses (JE:116-131); the first argument is what was seen of it. -/
def contents (j : State) : List MC → List MC → List (List Char)
  | seen, [] => (j.var (seen.map Prod.fst)).getD []
  | seen, c :: s =>
    if c = (':', true) then j.colon (j.var (seen.map Prod.fst)) s
    else if c = ('[', true) then j.bracket ((j.var (seen.map Prod.fst)).getD []) s
    else contents j (seen ++ [c]) s

/-- A value of a variable is not in the markers (JE:137-141). -/
def unmarked (s : List Char) : List MC := s.map fun c => (c, false)

/-- `jam-expand-arg-product` (JE:107-147). -/
def product (j : State) (pre : List MC) (vars suffixes : List (List MC)) : List (List MC) :=
  vars.flatMap fun v => (contents j [] v).flatMap fun comp => suffixes.map fun suffix => pre ++ unmarked comp ++ suffix

/-- `jam-expand-arg-aux` (JE:48-100), with at most so many calls inside one another. -/
def expandAux (j : State) : Nat → List MC → List (List MC)
  | 0, s => [s]
  | n + 1, s =>
    match splitDollar s with
    | none => [s]
    | some (pre, r) =>
      match splitClose 1 r with
      | (v, none) => product j pre (expandAux j n v) [[]]
      | (v, some t) => product j pre (expandAux j n v) (expandAux j n t)

/-- `jam-expand-arg` (JE:18-27): all characters are in the markers. -/
def expand (j : State) (s : List Char) : List (List Char) :=
  (expandAux j s.length (s.map fun c => (c, true))).map fun r => r.map Prod.fst

/-- `jam-expand-list` (JE:430-438). -/
def expandList (j : State) (l : List (List Char)) : List (List Char) := l.foldl (fun r s => r ++ expand j s) []

end Verif.JamExpand
