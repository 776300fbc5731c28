/-
Modifiers as they are written and what they mean.
-/
namespace Verif.JamMods

/-- A modifier: its letter and its replacement, whose characters say whether they are marked. -/
structure Modifier where
  letter : Char
  repl : Option (List (Char × Bool))

/-- The text of a modifier. -/
def Modifier.text (m : Modifier) : List (Char × Bool) :=
  (m.letter, true) :: match m.repl with
    | none => []
    | some r => ('=', true) :: r

/-- Modifiers written one after the other, with a colon after a replacement if there are more. -/
def written : List Modifier → List (Char × Bool)
  | [] => []
  | [m] => m.text
  | m :: n :: ms => m.text ++ (if m.repl.isSome then [(':', true)] else []) ++ written (n :: ms)

/-- A letter is not an equals sign, and no colon written in the replacement ends it. -/
def Modifier.Plain (m : Modifier) : Prop := m.letter ≠ '=' ∧ ∀ r, m.repl = some r → (':', true) ∉ r

/-- The replacement without marks. -/
def Modifier.value (m : Modifier) : Option (List Char) := m.repl.map (·.map Prod.fst)

/-- What modifiers do to a list of names, from left to right. The first `E`, `J` or `@` is the last one
    that does something. -/
def meaning (f : Char → Option (List Char) → Option (List Char → List Char)) (file : List (List Char) → List Char) :
    List Modifier → List (List Char) → Option (List (List Char))
  | [], names => some names
  | m :: ms, names =>
    if m.letter = 'E' then some (if names = [] then [m.value.getD []] else names)
    else if m.letter = 'J' then some (if names = [] then [] else [List.intercalate (m.value.getD []) names])
    else if m.letter = '@' then some (if names = [] then [] else [file names])
    else (f m.letter m.value).bind fun g => meaning f file ms (names.map g)

end Verif.JamMods
