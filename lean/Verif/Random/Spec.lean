import Verif.Random.Model

/-!
# The generators of a program

A program makes a generator with a seed and calls `random` on it, each time with a range of its own.
-/

namespace Verif.Random

/-- The generators that a program can have. -/
inductive Made : Gen → Prop
  | make (seed : Int) (r : Gen) (h : makeRandom seed = some r) : Made r
  | call (r : Gen) (hr : Made r) (rounds : Nat) (range v : Int) (r' : Gen) (h : random rounds range r = .ok v r') : Made r'

end Verif.Random
