import Verif.JamExpand.Model

/-!
# What an argument with variables means
-/

namespace Verif.JamExpand

/-- An argument: characters and variables; what is in the parentheses of a variable is again such a text. -/
inductive Text where
  | nil
  | lit (c : Char) (t : Text)
  | var (v t : Text)

/-- How it is written. -/
def Text.write : Text → List Char
  | .nil => []
  | .lit c t => c :: t.write
  | .var v t => '$' :: '(' :: (v.write ++ ')' :: t.write)

/-- What it means, if `value` are the values for the text in parentheses: all ways to choose a value for each variable, those of the
first variable changing slowest.  Values are marked as such. -/
def Text.mean (value : List MC → List (List Char)) : Text → List (List MC)
  | .nil => [[]]
  | .lit c t => (t.mean value).map fun r => (c, true) :: r
  | .var v t => (v.mean value).flatMap fun name => (value name).flatMap fun x =>
      (t.mean value).map fun r => x.map (fun c => (c, false)) ++ r

/-- No `$` that is a character is before a parenthesis. -/
def Text.Plain : Text → Prop
  | .nil => True
  | .lit c t => (c = '$' → t.write.head? ≠ some '(') ∧ t.Plain
  | .var v t => v.Plain ∧ t.Plain

/-- There are no parentheses but those of variables. -/
def Text.NoParens : Text → Prop
  | .nil => True
  | .lit c t => c ≠ '(' ∧ c ≠ ')' ∧ t.NoParens
  | .var v t => v.NoParens ∧ t.NoParens

/-- In the parentheses of variables there are no others. -/
def Text.Inside : Text → Prop
  | .nil => True
  | .lit _ t => t.Inside
  | .var v t => v.NoParens ∧ t.Inside

end Verif.JamExpand
