/-!
# Conditions: handlers, signals, restarts

Model of `sources/dylan/condition.dylan`, `sources/dylan/condition-extras.dylan`
and of the two macros that install handlers, `%let-handler` and
`%with-exception` (`sources/dfmc/conversion/convert.dylan`, 3353-3382 and
3424-3436).

A Dylan program is seen through what matters for conditions: calls to other
code, exits, cleanup clauses, handlers and signals.  Everything else is in the
Lean functions that say how to go on with the values received.  A handler may
signal again, so that a program need not end: programs are run with a number of
steps (`fuel`), and a run that is out of steps has no result.

Exits and cleanup clauses are taken here as they are meant to be; area `Nlx`
models how the run time does them.
-/

namespace Verif.Signal

/-- Dylan objects, of which only the identity matters here; 0 is `#f`. -/
abbrev Val := Nat

/-- The multiple values of an expression. -/
abbrev Vals := List Val

/-- A condition object. -/
abbrev Cond := Nat

/-- An exit procedure, named by its block. -/
abbrev Exit := Nat

/-- The `next-handler` argument of a handler: the number of the closure. -/
abbrev Next := Nat

/-- Programs.
`act e`: call out to other code, logged as `e`.
`bind p k`: `p`, then `k` on its values.
`bindExit body`: `block (x) body end`.  `exit h vs`: call the exit procedure.
`protect body cleanup`: `block () body cleanup ... end`.
`letHandler type test fn body`: `let handler (type, test: test) = fn; body`.
`exception type test handling body`:
`block () body exception (c :: type, test: test) handling end`.
`signal c`, `error c`: on a condition.  `next t`: call `next-handler`.
`addLast type test fn`, `removeLast`: `define last-handler`.
`doHandlers f`: `do-handlers(f)`.
A type is represented by its instances.  `tag` is the `init-arguments:` of the
handler, by which it is known to a caller of `do-handlers`. -/
inductive Prog where
  | done (vs : Vals)
  | act (e : Nat)
  | bind (p : Prog) (k : Vals → Prog)
  | bindExit (body : Exit → Prog)
  | exit (h : Exit) (vs : Vals)
  | protect (body cleanup : Prog)
  | letHandler (tag : Nat) (type : Cond → Bool) (test : Option (Cond → Prog))
      (fn : Cond → Next → Prog) (body : Prog)
  | exception (tag : Nat) (type : Cond → Bool) (test : Option (Cond → Prog))
      (handling : Cond → Prog) (body : Prog)
  | signal (c : Cond)
  | error (c : Cond)
  | next (t : Next)
  | addLast (tag : Nat) (type : Cond → Bool) (test : Option (Cond → Prog))
      (fn : Cond → Next → Prog)
  | removeLast
  | doHandlers (f : Nat → Prog)

/-- `<handler>` (`sources/dylan/condition.dylan`, 10-15).  The function of a
handler is either one given by the program (`user`), or the
`_handler-function_` of `%with-exception`
(`sources/dfmc/conversion/convert.dylan`, 3364-3372), which closes over
`_original-handlers_`, the body of the clause, and the exit of the block. -/
inductive Handler where
  | user (tag : Nat) (type : Cond → Bool) (test : Option (Cond → Prog))
      (fn : Cond → Next → Prog)
  | clause (tag : Nat) (type : Cond → Bool) (test : Option (Cond → Prog))
      (handling : Cond → Prog) (original : List Handler) (unwind : Exit)

/-- `handler-type` (`condition.dylan`, 11). -/
def Handler.type : Handler → Cond → Bool
  | .user _ type _ _ => type
  | .clause _ type _ _ _ _ => type

/-- `handler-test` (`condition.dylan`, 13). -/
def Handler.test : Handler → Option (Cond → Prog)
  | .user _ _ test _ => test
  | .clause _ _ test _ _ _ => test

/-- `handler-init-arguments` (`condition.dylan`, 14). -/
def Handler.tag : Handler → Nat
  | .user tag _ _ _ => tag
  | .clause tag _ _ _ _ _ => tag

/-- The method of `default-handler` that applies to a condition
(`condition.dylan`, 131-146; `condition-extras.dylan`, 67-70).  The function is
open, so a program may have methods for classes of its own. -/
inductive Default where
  | plain
  | serious
  | restart
  | user (p : Prog)

/-- What the model does not know: the default handlers of conditions, what the
debugger does, the conditions made by `error` on a string
(`condition.dylan`, 128; `condition-extras.dylan`, 68), which are known by
their identity, and the values returned by other code, which may depend on
everything that happened before. -/
structure World where
  default : Cond → Default
  debugger : Cond → Prog
  mayNotReturn : Cond
  noRestart : Cond → Cond
  call : List Nat → Vals

/-- The state shared by both semantics: what happened (`tr`), the number of
the next block, for each call of `signal` its variable `done-last?`, the
closures `next-handler` made so far, each with the search it belongs to, the
remaining handlers and the condition (`condition.dylan`, 77-101), and
`*last-handlers*` (`condition.dylan`, 22). -/
structure Mem where
  tr : List Nat
  blocks : Nat
  doneLast : List Bool
  nexts : List (Nat × List Handler × Cond)
  last : List Handler

/-- The state of a thread: the shared state and the thread variable
`*current-handlers*` (`condition.dylan`, 20). -/
structure St where
  mem : Mem
  cur : List Handler

/-- How a piece of code ends: with values, on the way to a block with values,
or by calling an exit procedure of a block that is over (or a `next-handler`
that was never made), of which nothing is said. -/
inductive Out where
  | val (vs : Vals)
  | exit (h : Exit) (vs : Vals)
  | dead
deriving DecidableEq

/-- The pieces of code that are run. `search`: the local method `search` of
`signal`; `matches`: `handler-matches?`; `invoke`: `invoke-handler`;
`default`: `default-handler`; `error`: the function `error`; `each`: the loop
of `do-handlers`. -/
inductive Code where
  | prog (p : Prog)
  | search (sid : Nat) (hs : List Handler) (c : Cond)
  | matches (h : Handler) (c : Cond)
  | invoke (sid : Nat) (h : Handler) (rest : List Handler) (c : Cond)
  | default (c : Cond)
  | error (c : Cond)
  | each (f : Nat → Prog) (hs : List Handler)

/-- Log a call to other code. -/
def Mem.log (m : Mem) (e : Nat) : Mem := { m with tr := m.tr ++ [e] }

/-- A new block. -/
def Mem.newBlock (m : Mem) : Mem := { m with blocks := m.blocks + 1 }

/-- A new call of `signal`: `let done-last? = #f` (`condition.dylan`, 81). -/
def Mem.newSearch (m : Mem) : Mem := { m with doneLast := m.doneLast ++ [false] }

/-- `done-last? := #t` (`condition.dylan`, 87). -/
def Mem.setDone (m : Mem) (sid : Nat) : Mem := { m with doneLast := m.doneLast.set sid true }

/-- `method () search(remaining) end` (`condition.dylan`, 96). -/
def Mem.newNext (m : Mem) (sid : Nat) (hs : List Handler) (c : Cond) : Mem :=
  { m with nexts := m.nexts ++ [(sid, hs, c)] }

/-- `add-last-handler` (`condition.dylan`, 26-28). -/
def Mem.addLast (m : Mem) (h : Handler) : Mem := { m with last := h :: m.last }

/-- `remove-last-handler` (`condition.dylan`, 30-34). -/
def Mem.removeLast (m : Mem) : Mem := { m with last := m.last.tail }

/-- Change the shared state. -/
def St.upd (s : St) (f : Mem → Mem) : St := { s with mem := f s.mem }

/-- `*current-handlers* := hs`. -/
def St.handlers (s : St) (hs : List Handler) : St := { s with cur := hs }

/-- The result of a run: none if it is out of steps. -/
abbrev Run := Option (Out × St)

/-- Go on with the values of a run that ended normally. -/
def Run.andThen (r : Run) (f : Vals → St → Run) : Run :=
  match r with
  | some (.val vs, s) => f vs s
  | r => r

/-- The block `id`: an exit to it ends here (`%with-exit`,
`convert.dylan`, 3345-3348). -/
def Run.land (r : Run) (id : Exit) : Run :=
  match r with
  | some (.exit h vs, s) => if h = id then some (.val vs, s) else some (.exit h vs, s)
  | r => r

/-- A cleanup clause: it is run when the body ends or is left, and then what
was under way goes on unless the clause itself exits (`%with-cleanup`,
`convert.dylan`, 3340-3343). -/
def Run.cleanup (r : Run) (f : St → Run) : Run :=
  match r with
  | some (.val vs, s) => Run.andThen (f s) fun _ s' => some (.val vs, s')
  | some (.exit h vs, s) => Run.andThen (f s) fun _ s' => some (.exit h vs, s')
  | r => r

/-- The cleanup clause `*current-handlers* := _original-handlers_` of both
macros (`convert.dylan`, 3378-3379 and 3433-3434). -/
def Run.restore (r : Run) (original : List Handler) : Run :=
  Run.cleanup r fun s => some (.val [0], s.handlers original)

/-- Is it `#f`? The first value counts, and it is `#f` if there is none. -/
def isFalse : Vals → Bool
  | [] => true
  | v :: _ => v == 0

/-- Run a piece of code.  `live` are the blocks that are not over.

* `let handler`: `%let-handler` (`convert.dylan`, 3424-3436).
* `exception`: `%with-exception` (`convert.dylan`, 3353-3382).
* `signal`: `signal` on a condition (`condition.dylan`, 77-101).  Its argument
  `noise` is taken to be empty.
* `matches`: `handler-matches?` (`condition.dylan`, 103-110).
  Simplification: a test that returns something else than a boolean is not an
  error.
* `invoke`: `invoke-handler` (`condition.dylan`, 113-117) and, for an exception
  clause, its `_handler-function_` (`convert.dylan`, 3365-3372).
* `default`: `default-handler` (`condition.dylan`, 131-133 and 142-145;
  `condition-extras.dylan`, 67-70).
* `error`: `error` on a condition (`condition.dylan`, 119-129): it calls itself
  on a new condition when `signal` returns.
* `each`: `do-with-handlers` in `do-handlers` (`condition-extras.dylan`,
  122-137). -/
def run (w : World) : Nat → List Exit → Code → St → Run
  | 0, _, _, _ => none
  | n + 1, live, code, s =>
    match code with
    | .prog (.done vs) => some (.val vs, s)
    | .prog (.act e) => some (.val (w.call (s.mem.tr ++ [e])), s.upd (·.log e))
    | .prog (.bind p k) =>
      Run.andThen (run w n live (.prog p) s) fun vs s' => run w n live (.prog (k vs)) s'
    | .prog (.bindExit body) =>
      Run.land (run w n (s.mem.blocks :: live) (.prog (body s.mem.blocks)) (s.upd Mem.newBlock))
        s.mem.blocks
    | .prog (.exit h vs) => if h ∈ live then some (.exit h vs, s) else some (.dead, s)
    | .prog (.protect body cl) =>
      Run.cleanup (run w n live (.prog body) s) fun s' => run w n live (.prog cl) s'
    | .prog (.letHandler tag type test fn body) =>
      Run.restore (run w n live (.prog body) (s.handlers (.user tag type test fn :: s.cur))) s.cur
    | .prog (.exception tag type test handling body) =>
      Run.land
        (Run.restore
          (run w n (s.mem.blocks :: live) (.prog body)
            ((s.upd Mem.newBlock).handlers
              (.clause tag type test handling s.cur s.mem.blocks :: s.cur)))
          s.cur)
        s.mem.blocks
    | .prog (.signal c) =>
      run w n live (.search s.mem.doneLast.length s.cur c) (s.upd Mem.newSearch)
    | .prog (.error c) => run w n live (.error c) s
    | .prog (.next t) =>
      match s.mem.nexts[t]? with
      | none => some (.dead, s)
      | some (sid, hs, c) => run w n live (.search sid hs c) s
    | .prog (.addLast tag type test fn) =>
      some (.val [], s.upd (·.addLast (.user tag type test fn)))
    | .prog .removeLast => some (.val [], s.upd Mem.removeLast)
    | .prog (.doHandlers f) =>
      Run.andThen (run w n live (.each f s.cur) s) fun _ s' =>
        run w n live (.each f s'.mem.last) s'
    | .search sid [] c =>
      if s.mem.doneLast.getD sid false then run w n live (.default c) s
      else run w n live (.search sid s.mem.last c) (s.upd (·.setDone sid))
    | .search sid (h :: hs) c =>
      Run.andThen (run w n live (.matches h c) s) fun vs s' =>
        if isFalse vs then run w n live (.search sid hs c) s'
        else run w n live (.invoke sid h hs c) s'
    | .matches h c =>
      if h.type c = false then some (.val [0], s)
      else
        match h.test with
        | none => some (.val [1], s)
        | some test => run w n live (.prog (test c)) s
    | .invoke sid (.user _ _ _ fn) hs c =>
      run w n live (.prog (fn c s.mem.nexts.length)) (s.upd (·.newNext sid hs c))
    | .invoke sid (.clause _ _ _ handling original unwind) hs c =>
      Run.andThen
        (run w n live (.prog (handling c)) ((s.upd (·.newNext sid hs c)).handlers original))
        fun vs s' => if unwind ∈ live then some (.exit unwind vs, s') else some (.dead, s')
    | .default c =>
      match w.default c with
      | .plain => some (.val [0], s)
      | .serious =>
        Run.andThen (run w n live (.prog (w.debugger c)) s) fun _ s' => some (.val [0], s')
      | .restart =>
        Run.andThen (run w n live (.error (w.noRestart c)) s) fun _ s' => some (.val [0], s')
      | .user p => run w n live (.prog p) s
    | .error c =>
      Run.andThen (run w n live (.prog (.signal c)) s) fun _ s' =>
        run w n live (.error w.mayNotReturn) s'
    | .each _ [] => some (.val [0], s)
    | .each f (h :: hs) =>
      Run.andThen (run w n live (.prog (f h.tag)) s) fun _ s' => run w n live (.each f hs) s'

/-- `cerror` (`condition-extras.dylan`, 57-65), for a condition that was already
made.  `simpleRestart` are the instances of `<simple-restart>`, `tag` the
arguments of the restart. -/
def cerror (simpleRestart : Cond → Bool) (tag : Nat) (c : Cond) : Prog :=
  .exception tag simpleRestart none (fun _ => .done [0]) (.error c)

/-- `break` (`condition-extras.dylan`, 13-31), for a condition that was already
made. -/
def breakInto (w : World) (simpleRestart : Cond → Bool) (tag : Nat) (c : Cond) : Prog :=
  .bind (.exception tag simpleRestart none (fun _ => .done []) (w.debugger c))
    fun _ => .done [0]

end Verif.Signal
