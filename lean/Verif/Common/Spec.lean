/-
What `split`, `join` and `position` mean, on lists.
-/
import Verif.Common.Model

namespace Verif.Common

variable {α : Type}

/-- The elements from `i` up to `j`. -/
def seg (l : List α) (i j : Nat) : List α := (l.take j).drop i

/-- `l` is `before`, an element that is a separator (the first one), and `after`. -/
def ObjCut (test : α → Bool) (l before after : List α) : Prop :=
  ∃ x, l = before ++ x :: after ∧ test x = true ∧ ∀ y ∈ before, test y = false

/-- The list starts with the pattern. -/
def startsWith (test : α → α → Bool) : List α → List α → Bool
  | [], _ => true
  | _ :: _, [] => false
  | y :: ys, x :: xs => test y x && startsWith test ys xs

/-- `l` is `before`, an occurrence of the separator (the first one), and `after`. -/
def SeqCut (test : α → α → Bool) (sep l before after : List α) : Prop :=
  ∃ mid, l = before ++ mid ++ after ∧ mid.length = sep.length ∧ startsWith test sep mid = true ∧
    ∀ i < before.length, startsWith test sep (l.drop i) = false

/-- The parts of `l`, cut wherever it can be, but at most `n` of them (and at least one): the last part is
    all that is left. -/
inductive Parts (Cut : List α → List α → List α → Prop) : Int → List α → List (List α) → Prop
  | whole {n l} : (∀ b a, ¬ Cut l b a) → Parts Cut n l [l]
  | stop {n l} : n ≤ 1 → Parts Cut n l [l]
  | cut {n l b a ps} : 1 < n → Cut l b a → Parts Cut (n - 1) a ps → Parts Cut n l (b :: ps)

/-- The parts of `l`, cut wherever it can be. -/
inductive AllParts (Cut : List α → List α → List α → Prop) : List α → List (List α) → Prop
  | whole {l} : (∀ b a, ¬ Cut l b a) → AllParts Cut l [l]
  | cut {l b a ps} : Cut l b a → AllParts Cut a ps → AllParts Cut l (b :: ps)

/-- The parts that are not empty, at most `n` of them: the last one is all that is left after empty parts. -/
inductive KeptParts (Cut : List α → List α → List α → Prop) : Int → List α → List (List α) → Prop
  | none {n} : (∀ b a, ¬ Cut [] b a) → KeptParts Cut n [] []
  | whole {n l} : (∀ b a, ¬ Cut l b a) → l ≠ [] → KeptParts Cut n l [l]
  | skip {n l a ps} : Cut l [] a → KeptParts Cut n a ps → KeptParts Cut n l ps
  | stop {n l b a} : n ≤ 1 → Cut l b a → b ≠ [] → KeptParts Cut n l [l]
  | cut {n l b a ps} : 1 < n → Cut l b a → b ≠ [] → KeptParts Cut (n - 1) a ps → KeptParts Cut n l (b :: ps)

/-- The sequences with the separator between them, and the conjunction, if there is one, before the last. -/
def joined (separator conjunction : List α) : List (List α) → List α
  | [] => []
  | [s] => s
  | [s, t] => s ++ conjunction ++ t
  | s :: rest => s ++ separator ++ joined separator conjunction rest

/-- The positions from `start` up to `fin` whose elements pass the test, in order. -/
def positions (test : α → Bool) (seq : List α) (start fin : Nat) : List Nat :=
  (List.range' start (fin - start)).filter (fun i => (seq[i]?).any test)

/-- The value a list of assignments, the last one first, gives a key. -/
def lookup {κ β : Type} [DecidableEq κ] (table : List (κ × β)) (k : κ) : Option β := (table.find? (fun p => p.1 = k)).map (·.2)

/-- Keys and values, one after the other, as pairs. -/
def pairsOf {β : Type} : List β → List (β × β)
  | k :: v :: rest => (k, v) :: pairsOf rest
  | _ => []

end Verif.Common
