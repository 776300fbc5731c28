/-
What the functions on sequences and collections return, in terms of the elements.
-/
import Verif.Iter.Model

namespace Verif.Iter

variable {α β : Type}

/-- The elements with `w` in the place of those from `i` up to `j`. -/
def splice (l : List α) (i j : Nat) (w : List α) : List α := l.take i ++ w ++ l.drop j

/-- Valid bounds. -/
def Bounds (n : Nat) (start : Int) (last : Option Int) (i j : Nat) : Prop := start = i ∧ last.getD n = j ∧ i ≤ j ∧ j ≤ n

/-- Replace the elements that satisfy `pred`, the first `count` of them if there is a count. -/
def replaced (pred : α → Bool) (new : α → α) : Option Nat → List α → List α
  | _, [] => []
  | some 0, l => l
  | some (n + 1), a :: l => if pred a then new a :: replaced pred new (some n) l else a :: replaced pred new (some (n + 1)) l
  | none, a :: l => if pred a then new a :: replaced pred new none l else a :: replaced pred new none l

/-- The elements without those that pass the test, or without the first `count` of them. -/
def removed (test : α → Bool) : Option Nat → List α → List α
  | _, [] => []
  | some 0, l => l
  | some (n + 1), a :: l => if test a then removed test (some n) l else a :: removed test (some (n + 1)) l
  | none, a :: l => if test a then removed test none l else a :: removed test none l

/-- `pat` is found in `l` at `i`: all its elements match those of `l` from `i` on. -/
def FoundAt (test : α → β → Bool) (l : List α) (pat : List β) (i : Nat) : Prop :=
  i + pat.length ≤ l.length ∧ ∀ (j : Nat) a b, l[i + j]? = some a → pat[j]? = some b → test a b = true

/-- The places where `pat` is found, in order. -/
structure Occurrences (test : α → β → Bool) (l : List α) (pat : List β) (places : List Nat) : Prop where
  ordered : places.Pairwise (· < ·)
  all : ∀ i, i ∈ places ↔ FoundAt test l pat i

/-- Two lists are equal, element by element. -/
def Same (eq : α → β → Bool) (l : List α) (m : List β) : Prop := l.length = m.length ∧ ∀ (i : Nat) a b, l[i]? = some a → m[i]? = some b → eq a b = true

/-- Two tables have the same keys, with equal elements. -/
def SameKeys {κ : Type} (eq : α → β → Bool) (get : κ → Option α) (get' : κ → Option β) : Prop :=
  ∀ k, match get k, get' k with
    | some a, some b => eq a b = true
    | none, none => True
    | _, _ => False

/-- Each key once. -/
def Distinct {κ : Type} (t : Assoc κ α) : Prop := (t.map (·.1)).Nodup

/-- `r` is `l` without duplicates: its elements are elements of `l` in the same order, no element matches a
    later one, and each element of `l` is there or matches one that is there. -/
structure WithoutDuplicates (test : α → α → Bool) (l r : List α) : Prop where
  sub : r.Sublist l
  apart : r.Pairwise (fun a b => test a b = false)
  all : ∀ x ∈ l, x ∈ r ∨ ∃ y ∈ r, test y x = true

end Verif.Iter
