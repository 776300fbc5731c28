/-!
# The order of the commands of a build

`jam-target-build` of `sources/lib/jam/jam-target-build.dylan` (TB): the graph of the commands, which commands are started, and what
is done when a command is complete.

While the graph is made, the lock `targets-lock` is held (TB:481-498) and no command can be completed; so the graph is complete
before the first completion.  Simplifications: how targets are bound and expanded into commands is not modelled; the graph is any
sequence of calls of `action-command-add-successor`.  `complete-command` calls itself for a successor that is a placeholder
(TB:461); here the placeholder is put on a list, from which it is completed at any time, so that there are more interleavings
than in the code.  The thread pool runs the commands that it has in any order (C150).
-/

namespace Verif.JamBuild

/-- `action-command-successors` and `action-command-predecessor-count` of all commands (TB:18-21). -/
structure Graph where
  succ : Nat → List Nat
  count : Nat → Nat

/-- A function changed at one place. -/
def update {α : Type} (f : Nat → α) (i : Nat) (x : α) : Nat → α := fun j => if j = i then x else f j

/-- `action-command-add-successor` (TB:27-35). -/
def addSuccessor (g : Graph) (p s : Nat) : Graph :=
  if s ∈ g.succ p then g
  else { succ := update g.succ p (g.succ p ++ [s]), count := update g.count s (g.count s + 1) }

/-- The graph after some calls. -/
def graphOf : List (Nat × Nat) → Graph := List.foldl (fun g c => addSuccessor g c.1 c.2) ⟨fun _ => [], fun _ => 0⟩

/-- A build: how many commands there are, the calls that made the graph (predecessor first), which commands have a string
(TB:10; the others are placeholders), which are from `actions ignore` (TB:16), the sentinel (TB:478-480), and the status with which
each command ends (TB:391-396). -/
structure Build where
  n : Nat
  calls : List (Nat × Nat)
  real : Nat → Bool
  ignore : Nat → Bool
  sentinel : Nat
  status : Nat → Nat

/-- The state: the remaining counts, the commands that were given to the thread pool and are not complete, the placeholders to be
completed and with which status, the flag `ok?` (TB:470).  The last three are not in the code: the commands that were completed, those
after which the build was stopped (TB:442-448), and the placeholders on which `complete-command` failed itself. -/
structure State where
  count : Nat → Nat
  pool : List Nat
  pend : List (Nat × Nat)
  ok : Bool
  done : List Nat
  failed : List Nat
  crashed : List Nat

/-- The loop over the successors (TB:453-464). -/
def notify (b : Build) (st : Nat) : List Nat → State → State
  | [], s => s
  | x :: l, s =>
    if s.count x - 1 = 0 then
      if b.real x then notify b st l { s with count := update s.count x (s.count x - 1), pool := s.pool ++ [x] }
      else notify b st l { s with count := update s.count x (s.count x - 1), pend := s.pend ++ [(x, st)] }
    else notify b st l { s with count := update s.count x (s.count x - 1) }

/-- `complete-command` (TB:430-472).  For a placeholder there is no string to put in the message (TB:443-444), which is an error. -/
def complete (b : Build) (s : State) (c st : Nat) : State :=
  if st ≠ 0 ∧ b.ignore c = false then
    if b.real c then { s with failed := c :: s.failed } else { s with crashed := c :: s.crashed }
  else
    let s' := notify b st ((graphOf b.calls).succ c) { s with done := c :: s.done }
    if c = b.sentinel then { s' with ok := true } else s'

/-- After the graph was made, the commands without predecessors have been given to the thread pool (TB:363-366). -/
def init (b : Build) : State :=
  { count := (graphOf b.calls).count
    pool := (List.range b.n).filter fun c => (graphOf b.calls).count c = 0
    pend := [], ok := false, done := [], failed := [], crashed := [] }

/-- A command of the thread pool ends (TB:379-419); a placeholder is complete at once, with status 0 (TB:412-418).  Or a placeholder
is completed after the last of its predecessors (TB:459-461). -/
inductive Step (b : Build) : State → State → Prop where
  | run {s : State} (l₁ l₂ : List Nat) (c : Nat) : s.pool = l₁ ++ c :: l₂ →
      Step b s (complete b { s with pool := l₁ ++ l₂ } c (if b.real c then b.status c else 0))
  | place {s : State} (l₁ l₂ : List (Nat × Nat)) (c st : Nat) : s.pend = l₁ ++ (c, st) :: l₂ →
      Step b s (complete b { s with pend := l₁ ++ l₂ } c st)

/-- The states that can be reached, and in how many steps. -/
inductive Reach (b : Build) : Nat → State → Prop where
  | init : Reach b 0 (init b)
  | step {k : Nat} {s s' : State} : Reach b k s → Step b s s' → Reach b (k + 1) s'

end Verif.JamBuild
