/-!
# Pseudo-random numbers

`sources/common-dylan/random.dylan` (RA), with integers of 62 bits.

All integers that the generator computes with are natural numbers.  The vector of a generator is a function of its 54
indices, which the code always reduces modulo 54.

Simplifications: the seed is given (the default one depends on the time); no other thread uses the generator; the search
for a good value has a bound on its rounds, and a result of its own when it reaches it.
-/

namespace Verif.Random

/-- `$maximum-integer` (`sources/dylan/integer.dylan` 82). -/
def maximum : Nat := 2 ^ 61 - 1

/-- `$recent-size` (RA:9). -/
def recentSize : Nat := 54

/-- `<random>` (RA:11-15). -/
structure Gen where
  recent : Fin 54 → Nat
  index : Nat

/-- An index of the vector, reduced. -/
def slot (i : Nat) : Fin 54 := ⟨i % 54, Nat.mod_lt _ (by decide)⟩

/-- `a[j] := v`. -/
def update (a : Fin 54 → Nat) (j : Fin 54) (v : Nat) : Fin 54 → Nat := fun k => if k = j then v else a k

/-- `lcg-rand` (RA:19-21). -/
def lcgRand (prev : Nat) : Nat := (prev * 171 + 11213) % 53125

/-- The loop that fills the vector (RA:29-35), with the rounds that are left. -/
def seedLoop : Nat → Nat → (Fin 54 → Nat) → Fin 54 → Nat
  | 0, _, a => a
  | n + 1, prev, a =>
    let v1 := lcgRand prev
    let v2 := lcgRand v1
    seedLoop n v2 (update a (slot (recentSize - (n + 1))) (v1 % 32768 + v2 % 16384 * 32768))

/-- `tap` (RA:47-49). -/
def tap (a : Fin 54 → Nat) (ri bit : Nat) : Nat := a (slot (ri + (recentSize - bit)))

/-- `random-29` (RA:43-54): the value and the generator. -/
def random29 (r : Gen) : Nat × Gen :=
  let ri := (r.index + 1) % recentSize
  let v := tap r.recent ri 54 ^^^ tap r.recent ri 8 ^^^ tap r.recent ri 6 ^^^ tap r.recent ri 3
  (v, ⟨update r.recent (slot ri) v, ri⟩)

/-- The generator after some calls of `random-29`. -/
def skip : Nat → Gen → Gen
  | 0, r => r
  | n + 1, r => skip n (random29 r).2

/-- `make(<random>, seed: seed)` (RA:23-41); `abs` of the least integer is an error. -/
def makeRandom (seed : Int) : Option Gen :=
  if seed = -(2 ^ 61) then none
  else
    let a := update (fun _ => 0) (slot 0) maximum
    some (skip (4 * recentSize + 1) ⟨seedLoop (recentSize - 1) (seed.natAbs % 32768) a, 0⟩)

/-- What a call of `random` does. -/
inductive Out where
  | ok (value : Int) (r : Gen)
  /-- Overflow, or division by zero. -/
  | error
  /-- The rounds are used up. -/
  | noEnd

/-- `find-good-value` (RA:63-70). -/
def findGood (limit : Nat) : Nat → Gen → Option (Nat × Gen)
  | 0, _ => none
  | n + 1, r =>
    let s := random29 r
    if s.1 ≤ limit then some s else findGood limit n s.2

/-- The limit (RA:62), for a range that is positive. -/
def limitOf (range : Nat) : Nat := maximum - (maximum - range + 1) % range

/-- `random` (RA:58-72).  With a negative range `M - range` overflows, and with the range zero `modulo` divides by
zero. -/
def random (rounds : Nat) (range : Int) (r : Gen) : Out :=
  if range ≤ 0 then .error
  else match findGood (limitOf range.toNat) rounds r with
    | none => .noEnd
    | some (v, r) => .ok (v % range.toNat : Nat) r

end Verif.Random
