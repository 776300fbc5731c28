/-
What the hash functions of tables are for, independently of how they compute: keys that the test
of a table takes for the same have the same hash code, and a hash code is an `<integer>`.
-/

namespace Verif.Hash

/-- The integers of the Dylan library with 64-bit words: two bits are the tag. -/
def InRange (i : Int) : Prop := -2 ^ 61 ≤ i ∧ i < 2 ^ 61

/-- The test is an equivalence. -/
structure Equivalence' {K : Type} (test : K → K → Bool) : Prop where
  refl : ∀ a, test a a = true
  symm : ∀ a b, test a b = true → test b a = true
  trans : ∀ a b c, test a b = true → test b c = true → test a c = true

/-- Keys that pass the test have the same hash code. -/
def Respects {K C : Type} (test : K → K → Bool) (hash : K → C) : Prop :=
  ∀ a b, test a b = true → hash a = hash b

/-- The letters `A` to `Z` and `a` to `z` in pairs. -/
def SameLetter (c d : BitVec 8) : Prop :=
  c = d ∨ ∃ i : Nat, i < 26 ∧ ((c.toNat = 65 + i ∧ d.toNat = 97 + i) ∨
    (c.toNat = 97 + i ∧ d.toNat = 65 + i))

/-- A collection as a map: the element at a key, if there is one. -/
def IsAt {K E : Type} (test : K → K → Bool) (c : List (K × E)) (k : K) (e : E) : Prop :=
  ∃ k', (k', e) ∈ c ∧ test k' k = true

/-- The two collections have the same keys, with elements that are equal. -/
def SameMap {K E : Type} (test : K → K → Bool) (eq : E → E → Bool) (c1 c2 : List (K × E)) : Prop :=
  (∀ k e, IsAt test c1 k e → ∃ e', IsAt test c2 k e' ∧ eq e e' = true) ∧
  (∀ k e, IsAt test c2 k e → ∃ e', IsAt test c1 k e' ∧ eq e' e = true)

/-- The keys of a collection differ by its key test. -/
def Distinct {K E : Type} (test : K → K → Bool) (c : List (K × E)) : Prop :=
  c.Pairwise (fun a b => test a.1 b.1 = false)

end Verif.Hash
