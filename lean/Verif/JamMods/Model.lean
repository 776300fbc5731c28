import Verif.JamNames.Model
/-
Model of the modifiers after a colon in a variable of a build rule
(/repo/sources/lib/jam/jam-evaluator.dylan:153-349).

Simplifications: a character comes with the mark that says whether it was written in the argument
(`var-markers`); what a modifier does to one name is any total function of the letter and the
replacement, `none` for an unknown letter, except for the modifier of marks, which is modelled by
itself; the temporary file of `@` is any name that depends on the members.
-/
namespace Verif.JamMods
open Verif.JamNames (stripGrist extractGrist)

/-- A name. -/
abbrev Name := List Char

/-- A character and whether it is marked. -/
abbrev MC := Char × Bool

/-- The search for the end of a replacement (`jam-evaluator.dylan:165-174`): the replacement and what is
    left after the colon. -/
def takeReplacement : List MC → List MC × List MC
  | [] => ([], [])
  | c :: s => if c = (':', true) then ([], s) else (c :: (takeReplacement s).1, (takeReplacement s).2)

/-- The replacement, if there is one, and what is left (`jam-evaluator.dylan:163-177`), given the text after
    the letter. -/
def replacement (s : List MC) : Option Name × List MC :=
  match s with
  | [] => (none, [])
  | c :: t => if c.1 = '=' then (some ((takeReplacement t).1.map Prod.fst), (takeReplacement t).2) else (none, c :: t)

/-- The loop that joins members (`jam-evaluator.dylan:194-204`). The next value of `result` is found with
    the component and the flag of the round that ends. -/
def joinLoop (joiner : Name) : List Name → Bool → Name → Name
  | [], _, result => result
  | c :: cs, first, result => joinLoop joiner cs false (if first then result else result ++ joiner ++ c)

/-- `jam-expand-arg-colon` (`jam-evaluator.dylan:153-349`), on the text from the letter on; `none`: an error is
    signalled. The number bounds the number of modifiers. -/
def colon (f : Char → Option Name → Option (Name → Name)) (file : List Name → Name) :
    Nat → Option (List Name) → List MC → Option (List Name)
  | 0, _, _ => none
  | _ + 1, contents, [] => some (contents.getD [])
  | k + 1, contents, m :: s =>
    let contents := contents.getD []
    if m.1 = 'E' then
      if contents ≠ [] then some contents
      else match (replacement s).1 with
        | some r => some [r]
        | none => some [[]]
    else if m.1 = 'J' then
      match contents with
      | [] => some []
      | c :: cs => some [joinLoop ((replacement s).1.getD []) (c :: cs) true c]
    else if m.1 = '@' then
      if contents = [] then some [] else some [file contents]
    else
      match f m.1 (replacement s).1 with
      | none => none
      | some g => colon f file k (some (contents.map g)) (replacement s).2

/-- The modifier `G` on one name (`jam-evaluator.dylan:302-324`). -/
def gristModifier (repl : Option Name) (name : Name) : Name :=
  match repl with
  | none => extractGrist name
  | some r =>
    if r = [] then stripGrist name
    else
      let newStart := if r.head? = some '<' then 1 else 0
      let newEnd := if r[r.length - 1]? = some '>' then r.length - 1 else r.length
      ['<'] ++ (r.take newEnd).drop newStart ++ ['>'] ++ stripGrist name

end Verif.JamMods
