import Verif.Signal.Model

/-!
# What handlers, signals and exits mean

The meaning of a program with no variable for the handlers in force: they are
an argument of the meaning (`env`), the innermost first.  The body of an
exception clause is run where the clause is written: after everything up to its
block has been left, including the cleanup clauses, and with the handlers
around the block.  `next-handler` goes on with the handlers behind the one it
was given to, then with the last handlers, then with the default handler, each
time it is called.

The meaning keeps a mark, which has no influence on anything: it is set when a
cleanup clause is run on the way to an exception clause, and when the handlers
in force have been used up a second time for one signal and there are last
handlers.
-/

namespace Verif.Signal

/-- How a piece of program ends.  `clause`: on the way to the body `handling`
of an exception clause of block `b`, which has the handlers `env` around it. -/
inductive Res where
  | val (vs : Vals)
  | exit (h : Exit) (vs : Vals)
  | clause (b : Exit) (env : List Handler) (handling : Cond → Prog) (c : Cond)
  | dead

/-- The pieces of program that have a meaning.  A search is either in the
handlers in force (`inLast = false`) or in the last handlers. -/
inductive Piece where
  | prog (p : Prog)
  | search (inLast : Bool) (sid : Nat) (hs : List Handler) (c : Cond)
  | matches (h : Handler) (c : Cond)
  | invoke (inLast : Bool) (sid : Nat) (h : Handler) (rest : List Handler) (c : Cond)
  | default (c : Cond)
  | error (c : Cond)
  | each (f : Nat → Prog) (hs : List Handler)

/-- What the meaning keeps besides the state: for each `next-handler` that was
made, whether it goes on in the last handlers, and the mark. -/
structure Notes where
  inLast : List Bool
  mark : Bool

/-- A `next-handler` is made. -/
def Notes.newNext (x : Notes) (l : Bool) : Notes := { x with inLast := x.inLast ++ [l] }

/-- Set the mark if `b`. -/
def Notes.note (x : Notes) (b : Bool) : Notes := { x with mark := x.mark || b }

/-- The end of a piece of program, the state there, and the notes. -/
abbrev Meaning := Option (Res × Mem × Notes)

/-- Go on with the values, if there are any. -/
def Meaning.andThen (r : Meaning) (f : Vals → Mem → Notes → Meaning) : Meaning :=
  match r with
  | some (.val vs, m, x) => f vs m x
  | r => r

/-- An exit to a block ends there. -/
def Meaning.land (r : Meaning) (id : Exit) : Meaning :=
  match r with
  | some (.exit h vs, m, x) => if h = id then some (.val vs, m, x) else some (.exit h vs, m, x)
  | r => r

/-- A condition on the way to an exception clause is handled there. -/
def Meaning.handle (r : Meaning) (id : Exit)
    (f : List Handler → Prog → Mem → Notes → Meaning) : Meaning :=
  match r with
  | some (.clause b env handling c, m, x) =>
    if b = id then f env (handling c) m x else some (.clause b env handling c, m, x)
  | r => r

/-- A cleanup clause is run when the body ends or is left.  On the way to an
exception clause this sets the mark. -/
def Meaning.cleanup (r : Meaning) (f : Mem → Notes → Meaning) : Meaning :=
  match r with
  | some (.val vs, m, x) => Meaning.andThen (f m x) fun _ m' x' => some (.val vs, m', x')
  | some (.exit h vs, m, x) => Meaning.andThen (f m x) fun _ m' x' => some (.exit h vs, m', x')
  | some (.clause b env handling c, m, x) =>
    Meaning.andThen (f m (x.note true)) fun _ m' x' => some (.clause b env handling c, m', x')
  | r => r

/-- The meaning of a piece of program: `live` are the blocks with an exit
procedure it is in, `clauses` those with an exception clause, `env` are the
handlers in force. -/
def meaning (w : World) : Nat → List Exit → List Exit → List Handler → Piece → Mem → Notes → Meaning
  | 0, _, _, _, _, _, _ => none
  | n + 1, live, clauses, env, piece, m, x =>
    match piece with
    | .prog (.done vs) => some (.val vs, m, x)
    | .prog (.act e) => some (.val (w.call (m.tr ++ [e])), { m with tr := m.tr ++ [e] }, x)
    | .prog (.bind p k) =>
      Meaning.andThen (meaning w n live clauses env (.prog p) m x) fun vs m' x' =>
        meaning w n live clauses env (.prog (k vs)) m' x'
    | .prog (.bindExit body) =>
      Meaning.land
        (meaning w n (m.blocks :: live) clauses env (.prog (body m.blocks)) m.newBlock x) m.blocks
    | .prog (.exit h vs) => if h ∈ live then some (.exit h vs, m, x) else some (.dead, m, x)
    | .prog (.protect body cl) =>
      Meaning.cleanup (meaning w n live clauses env (.prog body) m x) fun m' x' =>
        meaning w n live clauses env (.prog cl) m' x'
    | .prog (.letHandler tag type test fn body) =>
      meaning w n live clauses (.user tag type test fn :: env) (.prog body) m x
    | .prog (.exception tag type test handling body) =>
      Meaning.handle
        (meaning w n live (m.blocks :: clauses)
          (.clause tag type test handling env m.blocks :: env) (.prog body) m.newBlock x)
        m.blocks
        fun env' p m' x' => meaning w n live clauses env' (.prog p) m' x'
    | .prog (.signal c) =>
      meaning w n live clauses env (.search false m.doneLast.length env c) m.newSearch x
    | .prog (.error c) => meaning w n live clauses env (.error c) m x
    | .prog (.next t) =>
      match m.nexts[t]? with
      | none => some (.dead, m, x)
      | some (sid, hs, c) =>
        meaning w n live clauses env (.search (x.inLast.getD t false) sid hs c) m x
    | .prog (.addLast tag type test fn) =>
      some (.val [], { m with last := .user tag type test fn :: m.last }, x)
    | .prog .removeLast => some (.val [], { m with last := m.last.tail }, x)
    | .prog (.doHandlers f) =>
      Meaning.andThen (meaning w n live clauses env (.each f env) m x) fun _ m' x' =>
        meaning w n live clauses env (.each f m'.last) m' x'
    | .search true _ [] c => meaning w n live clauses env (.default c) m x
    | .search false sid [] c =>
      meaning w n live clauses env (.search true sid m.last c) (m.setDone sid)
        (x.note (m.doneLast.getD sid false && !m.last.isEmpty))
    | .search l sid (h :: hs) c =>
      Meaning.andThen (meaning w n live clauses env (.matches h c) m x) fun vs m' x' =>
        if isFalse vs then meaning w n live clauses env (.search l sid hs c) m' x'
        else meaning w n live clauses env (.invoke l sid h hs c) m' x'
    | .matches h c =>
      if h.type c = false then some (.val [0], m, x)
      else
        match h.test with
        | none => some (.val [1], m, x)
        | some test => meaning w n live clauses env (.prog (test c)) m x
    | .invoke l sid (.user _ _ _ fn) hs c =>
      meaning w n live clauses env (.prog (fn c m.nexts.length)) (m.newNext sid hs c) (x.newNext l)
    | .invoke l sid (.clause _ _ _ handling original unwind) hs c =>
      if unwind ∈ clauses then
        some (.clause unwind original handling c, m.newNext sid hs c, x.newNext l)
      else some (.dead, m, x)
    | .default c =>
      match w.default c with
      | .plain => some (.val [0], m, x)
      | .serious =>
        Meaning.andThen (meaning w n live clauses env (.prog (w.debugger c)) m x) fun _ m' x' =>
          some (.val [0], m', x')
      | .restart =>
        Meaning.andThen (meaning w n live clauses env (.error (w.noRestart c)) m x) fun _ m' x' =>
          some (.val [0], m', x')
      | .user p => meaning w n live clauses env (.prog p) m x
    | .error c =>
      Meaning.andThen (meaning w n live clauses env (.prog (.signal c)) m x) fun _ m' x' =>
        meaning w n live clauses env (.error w.mayNotReturn) m' x'
    | .each _ [] => some (.val [0], m, x)
    | .each f (h :: hs) =>
      Meaning.andThen (meaning w n live clauses env (.prog (f h.tag)) m x) fun _ m' x' =>
        meaning w n live clauses env (.each f hs) m' x'

end Verif.Signal
