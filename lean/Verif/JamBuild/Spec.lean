import Verif.JamBuild.Model

/-!
# The order of the commands of a build: specification
-/

namespace Verif.JamBuild

/-- One command must be complete before the other one is started. -/
inductive Before (b : Build) : Nat → Nat → Prop where
  | call {p s : Nat} : (p, s) ∈ b.calls → Before b p s
  | trans {p q s : Nat} : (p, q) ∈ b.calls → Before b q s → Before b p s

/-- The commands that were begun: given to the thread pool, or to be completed, or complete, or failed. -/
def State.begun (s : State) : List Nat := s.pool ++ (s.pend.map Prod.fst ++ (s.done ++ (s.failed ++ s.crashed)))

/-- The commands are numbered, and the sentinel is one of them and a placeholder. -/
structure Build.Ok (b : Build) : Prop where
  bound : ∀ c ∈ b.calls, c.1 < b.n ∧ c.2 < b.n
  sentinel : b.sentinel < b.n ∧ b.real b.sentinel = false

/-- No command must be complete before itself: they have ranks. -/
def Build.Acyclic (b : Build) : Prop := ∃ rank : Nat → Nat, ∀ c ∈ b.calls, rank c.1 < rank c.2

end Verif.JamBuild
