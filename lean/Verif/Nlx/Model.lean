/-!
# Non-local exits and cleanup clauses of the C run time

Model of `sources/lib/run-time/c-run-time-nlx.c` together with the code that
the C back end emits around it
(`sources/dfmc/c-back-end/c-emit-computation.dylan`, 1225-1309).

A Dylan program is seen through what matters for exits: calls to other code,
blocks with an exit procedure, calls of exit procedures, and blocks with a
cleanup clause.  Everything else is in the Lean functions that say how to go
on with the values received, so a `Prog` may choose its next step from any
value it got, pass exit procedures around, and so on.  A `Prog` is a
well-founded tree: programs that run for ever are not modelled.
-/

namespace Verif.Nlx

/-- Dylan objects, of which only the identity matters here. -/
abbrev Val := Nat

/-- The multiple values of an expression: the `count` first entries of the
`value` array of an `MV` (`sources/lib/run-time/run-time.h`, 506-511). -/
abbrev Vals := List Val

/-- `VALUES_MAX`, the length of the `value` array of an `MV`
(`sources/lib/run-time/run-time.h`, 506).  Nothing checks it. -/
def valuesMax : Nat := 64

/-- An exit procedure: the block it belongs to, and `local-entry-state?` of
that block, which decides whether calling it is compiled to a C `goto` or to a
call of `NLX` (`sources/dfmc/c-back-end/c-emit-computation.dylan`,
1264-1284). -/
structure Handle where
  id : Nat
  loc : Bool
deriving DecidableEq, Repr

/-- Programs.  `act e k`: call out to other code, logged as `e`, and go on
with the values it returns.  `bindExit loc body k`: `block (x) body end`
followed by `k`; `loc` is the compiler's `local-entry-state?`.  `exit h vs`:
call the exit procedure `h` on the values `vs`.  `protect body cleanup k`:
`block () body cleanup cleanup end` followed by `k`
(`%with-exit` and `%with-cleanup`, `sources/dfmc/conversion/convert.dylan`,
1092-1176 and 3286-3348). -/
inductive Prog where
  | done (vs : Vals)
  | act (e : Nat) (k : Vals → Prog)
  | bindExit (loc : Bool) (body : Handle → Prog) (k : Vals → Prog)
  | exit (h : Handle) (vs : Vals)
  | protect (body : Prog) (cleanup : Prog) (k : Vals → Prog)

/-- What an observer sees: calls to other code, a protected body being entered
and a cleanup clause being started.  The last two carry the number of the
block, which is only there for the observer. -/
inductive Event where
  | act (e : Nat)
  | enter (u : Nat)
  | clean (u : Nat)
deriving DecidableEq, Repr

/-- The code called by `act`: the values it returns may depend on everything
that happened before. -/
abbrev World := List Event → Vals

/-- `Unwind_protect_frame` (`sources/lib/run-time/run-time.h`, 547-555).  The
`jmp_buf` is represented by the address of the frame; `none` is `NULL`. -/
structure Uwp where
  vals : Vals
  ultimate : Option Nat
  prev : Option Nat
deriving DecidableEq, Repr

/-- `Bind_exit_frame` (`sources/lib/run-time/run-time.h`, 538-545). -/
structure Bef where
  present : Option Nat
  vals : Vals
deriving DecidableEq, Repr

/-- The frames on the C stack and the fields of the thread's `TEB` used by
exits (`sources/lib/run-time/run-time.h`, 580-605): `cur` is `uwp_frame`,
`ret` is `return_values`.  Simplification: frames get addresses that are never
used again, so a pointer to a dead frame never happens to point at a new
one. -/
structure Mem where
  uwp : Nat → Uwp
  bef : Nat → Bef
  cur : Option Nat
  ret : Vals
  next : Nat
  tr : List Event

/-- Where a `longjmp` goes. -/
inductive Target where
  | toUwp (u : Nat)
  | toBef (b : Nat)
deriving DecidableEq, Repr

/-- How a piece of C code ends: it reaches its end, it jumps, by `longjmp` or
by `goto`, or it does something C gives no meaning to. -/
inductive Out where
  | normal
  | jump (t : Target)
  | goto (b : Nat)
  | ub
deriving DecidableEq, Repr

/-- Change one unwind-protect frame. -/
def Mem.setUwp (m : Mem) (u : Nat) (f : Uwp) : Mem :=
  { m with uwp := fun i => if i = u then f else m.uwp i }

/-- Change one bind-exit frame. -/
def Mem.setBef (m : Mem) (b : Nat) (f : Bef) : Mem :=
  { m with bef := fun i => if i = b then f else m.bef i }

/-- Log an event. -/
def Mem.log (m : Mem) (e : Event) : Mem := { m with tr := m.tr ++ [e] }

/-- `SETUP_EXIT_FRAME` (`c-run-time-nlx.c`, 237-247). -/
def setupExitFrame (m : Mem) (b : Nat) : Mem :=
  m.setBef b { m.bef b with present := m.cur }

/-- `SETUP_UNWIND_FRAME` (`c-run-time-nlx.c`, 249-261). -/
def setupUnwindFrame (m : Mem) (u : Nat) : Mem :=
  { m.setUwp u { m.uwp u with prev := m.cur, ultimate := none } with cur := some u }

/-- `nlx_step` (`c-run-time-nlx.c`, 122-157).  Following a `NULL` pointer is
undefined behaviour. -/
def nlxStep (m : Mem) (d : Nat) : Out × Mem :=
  match m.cur with
  | none => (.ub, m)
  | some c =>
    if (m.bef d).present = some c then
      (.jump (.toBef d), m.setUwp c { m.uwp c with ultimate := none })
    else
      match (m.uwp c).prev with
      | none => (.ub, { m with cur := none })
      | some p =>
        (.jump (.toUwp c),
          { m.setUwp p { m.uwp p with ultimate := some d } with cur := some p })

/-- `NLX` (`c-run-time-nlx.c`, 219-235), called with the values of the exit in
the `TEB`. -/
def nlx (m : Mem) (d : Nat) : Out × Mem :=
  nlxStep (m.setBef d { m.bef d with vals := m.ret }) d

/-- `FRAME_RETVAL` (`c-run-time-nlx.c`, 267-278). -/
def frameRetval (m : Mem) (b : Nat) : Mem :=
  { m with ret := (m.bef b).vals }

/-- `FALL_THROUGH_UNWIND` (`c-run-time-nlx.c`, 159-181).  `none`: the frame
pointer was `NULL`. -/
def fallThrough (m : Mem) : Option Mem :=
  m.cur.map fun c => m.setUwp c { m.uwp c with vals := m.ret, ultimate := none }

/-- `CONTINUE_UNWIND` (`c-run-time-nlx.c`, 183-217). -/
def continueUnwind (m : Mem) : Out × Mem :=
  match m.cur with
  | none => (.ub, m)
  | some c =>
    match (m.uwp c).ultimate with
    | some d => nlxStep m d
    | none => (.normal, { m with ret := (m.uwp c).vals, cur := (m.uwp c).prev })

/-- Put multiple values in the `TEB`: `MV_SET_REST_AT`
(`sources/lib/run-time/c-run-time.c`, 3342-3350), which writes past the end of
the array if there are too many. -/
def setValues (m : Mem) (vs : Vals) : Option Mem :=
  if vs.length ≤ valuesMax then some { m with ret := vs } else none

/-- The code after a block: if control got there, go on with the values in the
`TEB`, otherwise pass the jump on. -/
def andThen (r : Out × Mem) (k : Vals → Mem → Out × Mem) : Out × Mem :=
  match r.1 with
  | .normal => k r.2.ret r.2
  | _ => r

/-- What `if (nlx_setjmp(FRAME_DEST(b))) x = FRAME_RETVAL(b); else body` does
with the way the body ended
(`sources/dfmc/c-back-end/c-emit-computation.dylan`, 1242-1261). -/
def catchExit (b : Nat) (r : Out × Mem) : Out × Mem :=
  match r.1 with
  | .jump (.toBef d) => if d = b then (.normal, frameRetval r.2 b) else r
  | _ => r

/-- A block whose exits are all `goto`s to the label after it
(`c-emit-computation.dylan`, 1237-1240 and 1267-1273). -/
def catchGoto (b : Nat) (r : Out × Mem) : Out × Mem :=
  match r.1 with
  | .goto d => if d = b then (.normal, r.2) else r
  | _ => r

/-- The cleanup clause, started in memory `m`, and `CONTINUE_UNWIND` after it
(`c-emit-computation.dylan`, 1307-1308). -/
def cleanupOnce (cl : Mem → Out × Mem) (u : Nat) (m : Mem) : Out × Mem :=
  match cl (m.log (.clean u)) with
  | (.normal, m') => continueUnwind m'
  | r => r

/-- The cleanup clause as code after a `setjmp`: a `longjmp` to the frame of
this block while the clause runs starts the clause once more.  Simplification:
a third start is reported as undefined behaviour. -/
def cleanups (cl : Mem → Out × Mem) (u : Nat) (m : Mem) : Out × Mem :=
  match cleanupOnce cl u m with
  | (.jump (.toUwp v), m') =>
    if v = u then
      match cleanupOnce cl u m' with
      | (.jump (.toUwp v'), m'') => if v' = u then (.ub, m'') else (.jump (.toUwp v'), m'')
      | r => r
    else (.jump (.toUwp v), m')
  | r => r

/-- What the code emitted for a block with a cleanup clause does with the way
the body ended (`c-emit-computation.dylan`, 1291-1309). -/
def afterBody (cl : Mem → Out × Mem) (u : Nat) (r : Out × Mem) : Out × Mem :=
  match r.1 with
  | .normal =>
    match fallThrough r.2 with
    | none => (.ub, r.2)
    | some m => cleanups cl u m
  | .jump (.toUwp v) => if v = u then cleanups cl u r.2 else r
  | _ => r

/-- The C code emitted for a program.  A jump is passed up to the block it
leads to; what is passed up out of the whole program is a jump to a frame
that is no longer there. -/
def exec (w : World) : Prog → Mem → Out × Mem
  | .done vs, m =>
    match setValues m vs with
    | none => (.ub, m)
    | some m' => (.normal, m')
  | .act e k, m =>
    let vs := w (m.tr ++ [.act e])
    match setValues (m.log (.act e)) vs with
    | none => (.ub, m)
    | some m' => exec w (k vs) m'
  | .exit h vs, m =>
    match setValues m vs with
    | none => (.ub, m)
    | some m' => if h.loc then (.goto h.id, m') else nlx m' h.id
  | .bindExit true body k, m =>
    andThen (catchGoto m.next (exec w (body ⟨m.next, true⟩) { m with next := m.next + 1 }))
      fun vs m' => exec w (k vs) m'
  | .bindExit false body k, m =>
    andThen
      (catchExit m.next
        (exec w (body ⟨m.next, false⟩)
          (setupExitFrame { m with next := m.next + 1 } m.next)))
      fun vs m' => exec w (k vs) m'
  | .protect body cl k, m =>
    andThen
      (afterBody (exec w cl) m.next
        (exec w body
          ((setupUnwindFrame { m with next := m.next + 1 } m.next).log (.enter m.next))))
      fun vs m' => exec w (k vs) m'

/-- A thread that has just been created (`make_teb`,
`sources/lib/run-time/posix-threads.c`, 190-201): the current frame is
`top_uwp_frame`, here at address 0, all of it zero. -/
def init : Mem :=
  { uwp := fun _ => ⟨[], none, none⟩, bef := fun _ => ⟨none, []⟩, cur := some 0, ret := [],
    next := 1, tr := [] }

/-- What the compiler guarantees about the blocks it calls local
(`analyze-block` and `exit-with-intervening-block?`,
`sources/dfmc/optimization/closure.dylan`, 22-107): their exits are in the
same method, and no other block is in between, except that a cleanup clause
does not count as a block in between.  `G` are the local blocks an exit at
this place may `goto` the end of. -/
def Compiled : Prog → List Handle → Prop
  | .done _, _ => True
  | .act _ k, G => ∀ vs, Compiled (k vs) G
  | .exit h _, G => h.loc = true → h ∈ G
  | .bindExit loc body k, G =>
    (∀ h, h.loc = loc → Compiled (body h) (if loc then [h] else [])) ∧ ∀ vs, Compiled (k vs) G
  | .protect body cl k, G => Compiled body [] ∧ Compiled cl G ∧ ∀ vs, Compiled (k vs) G

end Verif.Nlx
