/-!
# Which targets are built

`bind-aux` of `jam-target-build` in `sources/lib/jam/jam-target-build.dylan` (TB), and the test in `expand` whether the actions of a
target are run (TB:227).

Simplifications: dates are natural numbers, and `$zero-date` is 0.  There are no included files (`target-includes-target` is `#f`),
and an action has one target.  Targets are numbered so that a target depends only on targets with smaller numbers; that targets
depend on one another in a circle is in C153.  A target is bound when it is reached for the first time, and its status then also
depends on the target from which it was reached (`parent-target`): here this is any target, or none.
-/

namespace Verif.JamBind

/-- The slots of a target that are used (`sources/lib/jam/jam-target.dylan` 45-91): `target-file?`, the date of the file, if there
is one, `target-depends`, `target-leaf-only?`, `target-check-timestamps?`, `target-always-build?`, `target-internal?`,
`target-temporary?`, `target-allow-nonexistent?`, and whether there are action invocations. -/
structure Target where
  file : Bool := true
  date : Option Nat := none
  deps : List Nat := []
  leafOnly : Bool := false
  check : Bool := true
  always : Bool := false
  internal : Bool := false
  temporary : Bool := false
  allowMissing : Bool := false
  actions : Bool := false

/-- What is known of a target after it was bound: `target-build-status`, `target-modification-date` and `target-leaf-date`. -/
structure Result where
  status : Nat
  date : Option Nat
  leaf : Nat
  deriving DecidableEq

/-- The targets, from where each was first reached, and `force?:`. -/
structure Project where
  target : Nat → Target
  parent : Nat → Option Nat
  force : Bool

/-- The statuses (`sources/lib/jam/jam-target.dylan` 15-24). -/
def stable : Nat := 2
def newer : Nat := 3
def temp : Nat := 4
def touched : Nat := 5
def missing : Nat := 6
def needtmp : Nat := 7
def outdated : Nat := 8
def updated : Nat := 9
def nofind : Nat := 10
def nomake : Nat := 11

/-- The date of the file of the target from which it was reached. -/
def parentDate (p : Project) (i : Nat) : Option Nat := (p.parent i).bind fun q => (p.target q).date

/-- The date of `time-target` (TB:74-84). -/
def timeDate (p : Project) (i : Nat) : Option Nat :=
  if (p.target i).internal && (p.parent i).isSome then parentDate p i
  else if (p.target i).temporary && (p.target i).date.isNone && (parentDate p i).isSome then parentDate p i
  else (p.target i).date

/-- The later of a date and the date of a target, if it has one. -/
def later (last : Nat) : Option Nat → Nat
  | none => last
  | some m => max last m

/-- One round of the loop over the dependencies (TB:121-132); `last`, `leaf` and the status. -/
def worst (t : Target) (check : Bool) (d : Result) (a : Nat × Nat × Nat) : Nat × Nat × Nat :=
  if t.leafOnly then (max a.2.1 d.leaf, max a.2.1 d.leaf, a.2.2)
  else (if check then later a.1 d.date else a.1, max a.2.1 d.leaf, max a.2.2 d.status)

/-- The loop (TB:116-132). -/
def worstAll (p : Project) (t : Target) (res : Nat → Result) : Nat × Nat × Nat :=
  t.deps.foldl (fun a d => worst t (p.target d).check (res d) a) (0, 0, stable)

/-- A date is later than another one, if that is known. -/
def after (last : Nat) : Option Nat → Bool
  | none => false
  | some m => decide (m < last)

/-- Is the file newer than that of the target from which it was reached (TB:171-177)? -/
def newerThanParent (p : Project) (i : Nat) : Bool :=
  match p.parent i, (p.target i).date with
  | some q, some m => (p.target i).check && (p.target q).check && match (p.target q).date with
    | some mq => decide (mq < m)
    | none => false
  | _, _ => false

/-- The status (TB:142-182). -/
def statusOf (p : Project) (i last status : Nat) : Nat :=
  if missing ≤ status then nomake
  else if temp ≤ status then updated
  else if (p.target i).file && (p.target i).date.isNone then missing
  else if (p.target i).file && after last (p.target i).date then outdated
  else if after last (timeDate p i) then needtmp
  else if (p.target i).always || (p.force && (p.target i).check) then touched
  else if newerThanParent p i then newer
  else stable

/-- `bind-aux` (TB:116-208) after the dependencies were bound. -/
def bindWith (p : Project) (res : Nat → Result) (i : Nat) : Result :=
  let t := p.target i
  let w := worstAll p t res
  let last := if t.check then w.1 else 0
  let status := statusOf p i last (if t.check then w.2.2 else stable)
  let status := if status = missing ∧ t.deps = [] ∧ t.actions = false then (if t.allowMissing then stable else nofind) else status
  let date := t.date.map fun m => max m last
  { status := status, date := date, leaf := if w.2.1 ≠ 0 then w.2.1 else date.getD 0 }

/-- The first targets, bound one after the other. -/
def table (p : Project) : Nat → List Result
  | 0 => []
  | n + 1 => table p n ++ [bindWith p (fun j => ((table p n)[j]?).getD ⟨0, none, 0⟩) n]

/-- What is known of a target after it was bound. -/
def result (p : Project) (i : Nat) : Result := bindWith p (fun j => ((table p i)[j]?).getD ⟨0, none, 0⟩) i

/-- `expand` runs the actions of a target with this status (TB:227). -/
def built (p : Project) (i : Nat) : Bool := decide (touched ≤ (result p i).status)

end Verif.JamBind
