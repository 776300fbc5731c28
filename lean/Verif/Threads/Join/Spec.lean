import Verif.Threads.Join.Model
/-
What users see of joining, in terms of API events only.
-/
namespace Verif.Threads.Join.Spec
variable {T : Type} [DecidableEq T]

/-- How often `x` was joined successfully. -/
def joins (x : T) : List (Event T) → Nat
  | [] => 0
  | .joined _ y :: h => joins x h + if y = x then 1 else 0
  | _ :: h => joins x h

/-- The arguments of the call of `join-thread` that thread `t` is inside, if any. -/
def current (t : T) : List (Event T) → Option (List T)
  | [] => none
  | .joining u xs :: h => if u = t then some xs else current t h
  | .joined u _ :: h => if u = t then none else current t h
  | .joinFailed u :: h => if u = t then none else current t h
  | .exited _ :: h => current t h

/-- Some thread is inside a `join-thread` that has `x` among its arguments. -/
def BeingJoined (x : T) (h : List (Event T)) : Prop := ∃ t xs, current t h = some xs ∧ x ∈ xs

/-- No call of `join-thread` so far named a thread twice. -/
def NoRepeats : List (Event T) → Prop
  | [] => True
  | .joining _ xs :: h => xs.Nodup ∧ NoRepeats h
  | _ :: h => NoRepeats h

/-- No call of `join-thread` with several arguments was answered by an error. -/
def NoFailedMany : List (Event T) → Prop
  | [] => True
  | .joinFailed t :: h => (∀ xs, current t h = some xs → xs.length < 2) ∧ NoFailedMany h
  | _ :: h => NoFailedMany h

end Verif.Threads.Join.Spec
