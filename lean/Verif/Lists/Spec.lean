import Verif.Lists.Model
/-!
# What lists promise

`Chain h v as xs e` says what a list is in memory: from `v` on, the pairs `as` in a row, whose heads are
`xs`, and then the object `e`.  A proper list is a chain that ends in the empty list.
-/
namespace Verif.Lists

/-- From `v` on, the pairs `as`, with the heads `xs`, and then `e`. -/
inductive Chain (h : Heap) : Val → List Nat → List Val → Val → Prop
  | done (v : Val) : Chain h v [] [] v
  | pair {a : Nat} {as : List Nat} {xs : List Val} {e : Val} (nonnil : a ≠ 0) (used : a < h.next)
      (rest : Chain h (h.cells a).tail as xs e) :
      Chain h (.ref a) (a :: as) ((h.cells a).head :: xs) e

/-- `v` is a proper list of the elements `xs`. -/
def IsList (h : Heap) (v : Val) (xs : List Val) : Prop := ∃ as, Chain h v as xs nil

/-- `v` is a circular list: following the tails one comes back to a pair already seen. -/
def Circular (h : Heap) (v : Val) : Prop := ∃ as xs a, Chain h v as xs (.ref a) ∧ a ∈ as

/-- `v` is a list whose last pair has a tail that is not a list. -/
def Dotted (h : Heap) (v : Val) : Prop := ∃ as xs n, Chain h v as xs (.obj n) ∧ as ≠ []

/-- The empty list is as it was at the start. -/
structure Good (h : Heap) : Prop where
  pos : 0 < h.next
  empty : h.cells 0 = ⟨nil, nil⟩

/-- Tails that are lists are cells in use. -/
def Closed (h : Heap) : Prop := ∀ a < h.next, ∀ b, (h.cells a).tail = .ref b → b < h.next

/-- Nothing that existed has changed. -/
def Extends (h h' : Heap) : Prop := h.next ≤ h'.next ∧ ∀ a < h.next, h'.cells a = h.cells a

/-- Of what existed, only the cells `as` may have changed. -/
def OnlyChanges (as : List Nat) (h h' : Heap) : Prop :=
  h.next ≤ h'.next ∧ ∀ a < h.next, a ∉ as → h'.cells a = h.cells a

/-- `xs` without its first `n` elements that pass the test. -/
def without (test : Val → Bool) : Nat → List Val → List Val
  | 0, xs => xs
  | _ + 1, [] => []
  | n + 1, x :: xs => if test x then without test n xs else x :: without test (n + 1) xs

/-- What `remove` with this `count:` leaves. -/
def removed (test : Val → Bool) : Option Nat → List Val → List Val
  | none, xs => xs.filter (fun x => ! test x)
  | some n, xs => without test n xs

/-- `xs` without the elements that have an equal one further on. -/
def lastOnes (test : Val → Val → Bool) : List Val → List Val
  | [] => []
  | x :: xs => if xs.any (test x) then lastOnes test xs else x :: lastOnes test xs

end Verif.Lists
