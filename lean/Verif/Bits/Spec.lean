/-
What bit vectors and bit sets are supposed to do.
-/
import Verif.Bits.Model

namespace Verif.Bits

/-- Bit `i` of a vector whose bits beyond its end are all equal to the pad. -/
def padded (v : BV) (pad : Bool) (i : Nat) : Bool :=
  if i < v.size then (v.word (i / 64)).getLsbD (i % 64) else pad

/-- A vector has as many words as its bits need. -/
def BV.Good (v : BV) : Prop := v.wsize = (v.size + 63) / 64

/-- A heap as the functions make it: the first vector is empty and all vectors have their words. -/
structure Heap.Good (h : Heap) : Prop where
  pos : 0 < h.next
  empty : (h.vec 0).size = 0
  vecs : ∀ r, r < h.next → (h.vec r).Good

/-- The members of a set. -/
def members (s : State) (x i : Nat) : Bool := padded (s.heap.vec (s.set x).vec) (s.set x).pad i

/-- Sets of natural numbers, and how many there are. -/
structure Sets where
  elems : Nat → Nat → Bool
  next : Nat

/-- A new set. -/
def Sets.new (S : Sets) (m : Nat → Bool) : Sets :=
  { elems := Function.update S.elems S.next m, next := S.next + 1 }

/-- A changed set. -/
def Sets.put (S : Sets) (x : Nat) (m : Nat → Bool) : Sets :=
  { S with elems := Function.update S.elems x m }

/-- Union, intersection and difference. -/
def Binary.on : Binary → Bool → Bool → Bool
  | .union, a, b => a || b
  | .intersection, a, b => a && b
  | .difference, a, b => a && !b

/-- What a call does to the sets. -/
def Sets.call (S : Sets) : Op → Sets
  | .make _ none => S.new fun _ => false
  | .make _ (some n) => S.new fun i => decide (n ≤ i)
  | .withBit x i bit => S.new (Function.update (S.elems x) i.toNat bit)
  | .withBitX x i bit => S.put x (Function.update (S.elems x) i.toNat bit)
  | .combine o x y => S.new fun i => o.on (S.elems x i) (S.elems y i)
  | .combineX o x y => S.put x fun i => o.on (S.elems x i) (S.elems y i)
  | .complement x => S.new fun i => !S.elems x i
  | .complementX x => S.put x fun i => !S.elems x i
  | .copyX x y => S.put x (S.elems y)
  | .setAllX x bit => S.put x fun _ => bit

/-- No sets. -/
def Sets.none : Sets where
  elems := fun _ _ => false
  next := 0

/-- The calls refer to sets that exist when they are made, and to no negative numbers. -/
def Proper : Nat → List Op → Prop
  | _, [] => True
  | n, .make _ _ :: r => Proper (n + 1) r
  | n, .withBit x i _ :: r => x < n ∧ 0 ≤ i ∧ Proper (n + 1) r
  | n, .withBitX x i _ :: r => x < n ∧ 0 ≤ i ∧ Proper n r
  | n, .combine _ x y :: r => x < n ∧ y < n ∧ Proper (n + 1) r
  | n, .combineX _ x y :: r => x < n ∧ y < n ∧ Proper n r
  | n, .complement x :: r => x < n ∧ Proper (n + 1) r
  | n, .complementX x :: r => x < n ∧ Proper n r
  | n, .copyX x y :: r => x < n ∧ y < n ∧ Proper n r
  | n, .setAllX x _ :: r => x < n ∧ Proper n r

/-- No set is made for 62 or 63 numbers. -/
def Sized (ops : List Op) : Prop :=
  ∀ hint allFrom n, .make hint allFrom ∈ ops → hint = some n ∨ allFrom = some n → n ≠ 62 ∧ n ≠ 63

/-- The size of a set: none if there are members beyond every number, or the number of its members. -/
def SizeOf (m : Nat → Bool) : Option Nat → Prop
  | none => ∀ n, ∃ i, n ≤ i ∧ m i = true
  | some n => ∃ l : List Nat, l.Nodup ∧ l.length = n ∧ ∀ i, i ∈ l ↔ m i = true

/-- The elements a forward iteration visits within `n` rounds from a state; none if it has not ended, or
    if it failed. -/
def forward (s : State) (x : Nat) : Nat → Iter → Option (List Int)
  | 0, _ => none
  | n + 1, t =>
    if fipFinished s x t then some []
    else match fipNext s x t with
      | .ok t' => (forward s x n t').map (t.element :: ·)
      | _ => none

/-- The elements a backward iteration visits. -/
def backward (s : State) (x : Nat) : Nat → Iter → Option (List Int)
  | 0, _ => none
  | n + 1, t =>
    if bipFinished t then some []
    else match bipNext s x t with
      | .ok t' => (backward s x n t').map (t.element :: ·)
      | _ => none

/-- The state of a forward iteration after `k` steps. -/
def forwardState (s : State) (x : Nat) : Nat → Out Iter
  | 0 => fipInitial s x
  | k + 1 => (forwardState s x k).bind (fipNext s x)

/-- The bits of a vector beyond its size, in its last word, are all equal to `b`. -/
def BV.Tail (v : BV) (b : Bool) : Prop :=
  ∀ i, v.size ≤ i → i < v.wsize * 64 → (v.word (i / 64)).getLsbD (i % 64) = b

end Verif.Bits
