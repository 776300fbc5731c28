/-
What a table is supposed to do, independently of how it is implemented: a map from keys to values,
which an iteration points into.
-/
import Verif.Table.Model

namespace Verif.Table

/-- The key test is an equivalence, and at every time equal keys have the same hash code. -/
structure World.Lawful {K : Type} (W : World K) : Prop where
  refl : ∀ a, W.eq a a = true
  symm : ∀ a b, W.eq a b = true → W.eq b a = true
  trans : ∀ a b c, W.eq a b = true → W.eq b c = true → W.eq a c = true
  hash_eq : ∀ t a b, W.eq a b = true → W.hash t a = W.hash t b

/-- From time `t` on the collector moves nothing and `is-stale?` has no spurious answers. -/
def World.Quiet {K : Type} (W : World K) (t : Nat) : Prop :=
  ∀ u, t ≤ u → W.spur u = false ∧ ∀ k, W.hash u k = W.hash t k

/-- Store a value under a key. -/
def mapPut {K V : Type} (eq : K → K → Bool) (m : K → Option V) (k : K) (v : V) : K → Option V :=
  fun k' => if eq k' k then some v else m k'

/-- Remove a key. -/
def mapRemove {K V : Type} (eq : K → K → Bool) (m : K → Option V) (k : K) : K → Option V :=
  fun k' => if eq k' k then none else m k'

/-- The map has `n` keys that differ by the key test. -/
def IsSize {K V : Type} (eq : K → K → Bool) (m : K → Option V) (n : Int) : Prop :=
  ∃ l : List K, l.Pairwise (fun a b => eq a b = false) ∧
    (∀ k, m k ≠ none ↔ ∃ k' ∈ l, eq k k' = true) ∧ n = l.length

/-- The map, and for each iteration created so far its current key if it is not exhausted, with a
    flag that is true unless that key has been removed since the iteration came to it. -/
structure SpecSt (K V : Type) where
  m : K → Option V
  curs : List (Option (K × Bool))

/-- The iterations after a key has been removed. -/
def cursRemove {K : Type} (eq : K → K → Bool) (k : K) :
    Option (K × Bool) → Option (K × Bool)
  | none => none
  | some (k', b) => some (k', b && !eq k k')

/-- What each operation may show, and what it does to the map. -/
inductive SpecStep {K V : Type} (eq : K → K → Bool) :
    SpecSt K V → Op K V → Obs K V → SpecSt K V → Prop
  | get (s k) : SpecStep eq s (.get k) (.found (s.m k)) s
  | put (s k v) : SpecStep eq s (.put k v) .done { s with m := mapPut eq s.m k v }
  | remove (s k) : SpecStep eq s (.remove k) (.removed (s.m k).isSome)
      { m := mapRemove eq s.m k, curs := s.curs.map (cursRemove eq k) }
  | clear (s) : SpecStep eq s .clear .done { s with m := fun _ => none }
  | size (s n) : IsSize eq s.m n → SpecStep eq s .size (.size n) s
  | iterStart (s k) : SpecStep eq s .iterStart (.cursor k)
      { s with curs := s.curs ++ [k.map (·, true)] }
  | iterNext (s n k) : n < s.curs.length → SpecStep eq s (.iterNext n) (.cursor k)
      { s with curs := s.curs.set n (k.map (·, true)) }
  | iterCopy (s n c) : s.curs[n]? = some c → SpecStep eq s (.iterCopy n) (.cursor (c.map (·.1)))
      { s with curs := s.curs ++ [c] }
  -- the current element, while its key is in the table
  | iterElem (s n k b v) : s.curs[n]? = some (some (k, b)) → s.m k = some v →
      SpecStep eq s (.iterElem n) (.elem v) s
  -- the current key is no longer in the table
  | iterElemGone (s n k b v) : s.curs[n]? = some (some (k, b)) → s.m k = none →
      SpecStep eq s (.iterElem n) (.elem v) s
  -- the current key has been removed, and perhaps stored again
  | iterElemRemoved (s n k) : s.curs[n]? = some (some (k, false)) →
      SpecStep eq s (.iterElem n) .exhausted s
  | iterElemEnd (s n) : s.curs[n]? = some none → SpecStep eq s (.iterElem n) .exhausted s
  | iterSet (s n k b v) : s.curs[n]? = some (some (k, b)) →
      SpecStep eq s (.iterSet n v) .done { s with m := mapPut eq s.m k v }
  | iterSetEnd (s n v) : s.curs[n]? = some none → SpecStep eq s (.iterSet n v) .exhausted s
  | unknownNext (s n) : s.curs.length ≤ n → SpecStep eq s (.iterNext n) .unknown s
  | unknownCopy (s n) : s.curs.length ≤ n → SpecStep eq s (.iterCopy n) .unknown s
  | unknownElem (s n) : s.curs.length ≤ n → SpecStep eq s (.iterElem n) .unknown s
  | unknownSet (s n v) : s.curs.length ≤ n → SpecStep eq s (.iterSet n v) .unknown s
  -- an operation that fails because the table would become too large changes nothing,
  | tooLarge (s op) : SpecStep eq s op .tooLarge s
  -- except that a store through an iteration may have happened
  | tooLargeSet (s n k b v) : s.curs[n]? = some (some (k, b)) →
      SpecStep eq s (.iterSet n v) .tooLarge { s with m := mapPut eq s.m k v }

/-- What a history may show. -/
inductive SpecRun {K V : Type} (eq : K → K → Bool) :
    SpecSt K V → List (Op K V) → List (Obs K V) → SpecSt K V → Prop
  | nil (s) : SpecRun eq s [] [] s
  | cons {s s' s'' op o ops os} : SpecStep eq s op o s' → SpecRun eq s' ops os s'' →
      SpecRun eq s (op :: ops) (o :: os) s''

/-- The empty map. -/
def SpecSt.init {K V : Type} : SpecSt K V := { m := fun _ => none, curs := [] }

/-- The value stored last under a key equal to `k` and not removed since, by a history given
    latest operation first. -/
def lastStored {K V : Type} (eq : K → K → Bool) (k : K) : List (Op K V) → Option V
  | [] => none
  | .put k' v :: before => if eq k k' then some v else lastStored eq k before
  | .remove k' :: before => if eq k k' then none else lastStored eq k before
  | .clear :: _ => none
  | _ :: before => lastStored eq k before

/-- Operations that do not store through an iteration. -/
def Op.plain {K V : Type} : Op K V → Bool
  | .iterSet _ _ => false
  | _ => true

/-- Operations that do not change the map, nor advance iteration `id`. -/
def Op.readOnly {K V : Type} (id : Nat) : Op K V → Bool
  | .get _ => true
  | .size => true
  | .iterStart => true
  | .iterNext n => n != id
  | .iterCopy _ => true
  | .iterElem _ => true
  | _ => false

/-- Operations that remove nothing and do not advance iteration `id`. -/
def Op.keeps {K V : Type} (id : Nat) : Op K V → Bool
  | .remove _ => false
  | .clear => false
  | .iterNext n => n != id
  | _ => true

/-- A whole iteration: while iteration `id` is not exhausted, note its current key and current
    element, do the operations `between n`, and advance it.  `none` if a current element cannot
    be had; `running` if it takes more than `steps` rounds. -/
def traverse {K V : Type} (W : World K) (fuel : Nat) (between : Nat → List (Op K V)) (id : Nat) :
    Nat → St K V → Out K V (Option (List (K × V)))
  | 0, _ => .running
  | n + 1, s =>
    match (s.its[id]?).bind Iter.current with
    | none => .ok (some [])
    | some k =>
      match run W fuel s ([.iterElem id] ++ between n ++ [.iterNext id]) with
      | .ok (.elem v :: _, s') => match traverse W fuel between id n s' with
        | .ok l => .ok (l.map ((k, v) :: ·))
        | .diverge => .diverge
        | .running => .running
      | .ok _ => .ok none
      | .diverge => .diverge
      | .running => .running

/-- The list has each key of the map once, with its value, and nothing else. -/
def Enumerates {K V : Type} (eq : K → K → Bool) (m : K → Option V) (l : List (K × V)) : Prop :=
  l.Pairwise (fun a b => eq a.1 b.1 = false) ∧
  ∀ k v, m k = some v ↔ ∃ k', (k', v) ∈ l ∧ eq k k' = true

end Verif.Table
