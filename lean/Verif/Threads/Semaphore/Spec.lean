import Verif.Threads.Semaphore.Model
/-
Counting API events.
-/
namespace Verif.Threads.Semaphore.Spec
variable {T : Type}

/-- The number of successful waits in a history. -/
def waits : List (Event T) → Nat
  | [] => 0
  | .waited _ :: h => waits h + 1
  | _ :: h => waits h

/-- The number of calls of `release`. -/
def releaseCalls : List (Event T) → Nat
  | [] => 0
  | .releasing _ :: h => releaseCalls h + 1
  | _ :: h => releaseCalls h

/-- The number of releases that returned successfully. -/
def releases : List (Event T) → Nat
  | [] => 0
  | .released _ :: h => releases h + 1
  | _ :: h => releases h

/-- The number of releases answered by an error. -/
def failures : List (Event T) → Nat
  | [] => 0
  | .releaseFailed _ :: h => failures h + 1
  | _ :: h => failures h

end Verif.Threads.Semaphore.Spec
