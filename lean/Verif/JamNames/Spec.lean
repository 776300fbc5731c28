/-
What it means to be the words of a string.
-/
namespace Verif.JamNames

/-- `Words d l ws`: the words of `l`, from left to right, are `ws`, where `d` says which characters
    separate words. A word is not empty, has no separator, and is followed by one or by the end. -/
inductive Words (d : Char → Bool) : List Char → List (List Char) → Prop where
  | nil : Words d [] []
  | skip {c l ws} : d c = true → Words d l ws → Words d (c :: l) ws
  | word {w l ws} : w ≠ [] → (∀ c ∈ w, d c = false) → (∀ c ∈ l.head?, d c = true) → Words d l ws →
      Words d (w ++ l) (w :: ws)

/-- The name has a mark: it begins with text in angle brackets. -/
def Marked (name mark rest : List Char) : Prop :=
  ∃ body, '>' ∉ body ∧ mark = '<' :: body ++ ['>'] ∧ name = mark ++ rest

end Verif.JamNames
