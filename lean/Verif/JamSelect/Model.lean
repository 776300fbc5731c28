import Verif.Common.Model
import Verif.IntString.Model
/-
Model of the selection of members from the value of a variable in a build rule
(/repo/sources/lib/jam/jam-evaluator.dylan:351-407).

Simplifications: the state and the set of marked positions, which are only passed on, are left
out; what the modifiers after a colon do (`jam-expand-arg-colon`) is any function.
-/
namespace Verif.JamSelect
open Verif.Common (copySeq)
open Verif.IntString (stringToInteger)

variable {α : Type}

/-- `vector(contents[n - 1])` (`jam-evaluator.dylan:368`, `370`, `402`); `none`: an error. -/
def one (contents : List α) (n : Int) : Option (List α) :=
  if n < 1 then none else contents[(n - 1).toNat]?.map fun x => [x]

/-- The modifiers if there is a colon at `i`, which they begin after (`jam-evaluator.dylan:371-375`,
    `379-383`). -/
def thenColon (colon : List α → Int → Option (List α)) (variable' : List Char) (i : Int) (result : List α) :
    Option (List α) :=
  if i < variable'.length ∧ variable'[i.toNat]? = some ':' then colon result (i + 1) else some result

/-- `jam-expand-arg-bracket` (`jam-evaluator.dylan:355-407`); `none`: an error is signalled. -/
def bracket (colon : List α → Int → Option (List α)) (contents : List α) (variable' : List Char) (start : Int) :
    Option (List α) :=
  if start < variable'.length then
    match stringToInteger variable' 10 start none (some 0) with
    | .ok (n, afterN) =>
      if n < 1 ∨ n > contents.length then some []
      else if afterN ≥ variable'.length then one contents n
      else if variable'[afterN.toNat]? = some ']' then
        (one contents n).bind (thenColon colon variable' (afterN + 1))
      else if variable'[afterN.toNat]? = some '-' then
        if afterN + 1 < variable'.length ∧ variable'[(afterN + 1).toNat]? = some ']' then
          (copySeq contents (n - 1) contents.length).bind (thenColon colon variable' (afterN + 2))
        else
          match stringToInteger variable' 10 (afterN + 1) none (some 0) with
          | .ok (m, afterM) =>
            let result :=
              if m < 1 ∨ m > contents.length then copySeq contents (n - 1) contents.length
              else copySeq contents (n - 1) m
            if afterM + 1 < variable'.length ∧ variable'[afterM.toNat]? = some ']' ∧
                variable'[(afterM + 1).toNat]? = some ':' then
              result.bind fun r => colon r (afterM + 2)
            else result
          | _ => none
      else one contents n
    | _ => none
  else contents[0]?.map fun x => [x]

end Verif.JamSelect
