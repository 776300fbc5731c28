import Verif.Macro.Pattern

/-
How the parser is driven to find what a constrained pattern variable stands for
(sources/dfmc/macro-expander/constraint-parsing.dylan 9-138).

The parser is a parameter: a machine that reads one token after the other, refuses one as soon as no phrase goes on
with it, and says at the end of the input whether it has read a phrase (`run-parser`,
sources/lib/parser-run-time/dispatch.dylan 362-399).
-/

namespace Verif.Macro

/-- What the parser reads: the marker of the constraint, brackets one by one, other fragments. -/
inductive Tok where
  | start (c : Con)
  | opens (d : Delim)
  | closes (d : Delim)
  | frag (f : Frag)

/-- A parser. -/
structure Machine where
  State : Type
  init : State
  step : State → Tok → Option State
  done : State → Option Val

/-- What the lexer of `parse-constraint` reads: the marker before the fragments. -/
inductive Piece where
  | start (c : Con)
  | frag (f : Frag)

/-- The state of the lexer: `token-stack`, `nesting-stack`, `count` (constraint-parsing.dylan 12-20). -/
structure Lex where
  tokens : List Piece
  nesting : List (Delim × List Piece)
  count : Nat

/-- `lexer` (constraint-parsing.dylan 21-46 without, 86-114 with `stop?`); `none` is `$end-constraint`.  The limit
`none` is the -1 of the first attempt (19, 84). -/
def Lex.next (stop : Frag → Bool) (limit : Option Nat) (l : Lex) : Option (Tok × Lex) :=
  if limit = some l.count then none
  else
    match l.tokens with
    | [] =>
      match l.nesting with
      | [] => none
      | (d, ts) :: ns => some (.closes d, ⟨ts, ns, l.count + 1⟩)
    | .start c :: ts => some (.start c, ⟨ts, l.nesting, l.count + 1⟩)
    | .frag (.nested d inner) :: ts =>
      some (.opens d, ⟨inner.map .frag, (d, ts) :: l.nesting, l.count + 1⟩)
    | .frag f :: ts =>
      if l.nesting.isEmpty && stop f then none else some (.frag f, ⟨ts, l.nesting, l.count + 1⟩)

/-- How one attempt ends: with a phrase and the tokens left, or with an error, `count` tokens having been read. -/
inductive Attempt where
  | parsed (v : Val) (remains : List Piece)
  | error (count : Nat)
  | running

/-- `re-read-fragments` with that lexer (constraint-parsing.dylan 52-53).  The number bounds the steps. -/
def attempt (M : Machine) (stop : Frag → Bool) (limit : Option Nat) : Nat → M.State → Lex → Attempt
  | 0, _, _ => .running
  | n + 1, s, l =>
    match l.next stop limit with
    | none =>
      match M.done s with
      | some v => .parsed v l.tokens
      | none => .error l.count
    | some (t, l) =>
      match M.step s t with
      | some s => attempt M stop limit n s l
      | none => .error l.count

mutual
/-- The number of tokens of fragments. -/
def tokCount : Frag → Nat
  | .nested _ fs => tokCounts fs + 2
  | _ => 1
def tokCounts : List Frag → Nat
  | [] => 0
  | f :: fs => tokCount f + tokCounts fs
end

/-- How parsing ends: with what is left and what was parsed, or with a failure. -/
inductive Parsed where
  | found (remains : List Piece) (v : Val)
  | failure
  | running

/-- The loop of `parse-constraint` and `parse-bounded-constraint` (constraint-parsing.dylan 47-67, 115-136).  The first
number bounds the attempts. -/
def attempts (M : Machine) (stop : Frag → Bool) (c : Con) (fs : List Frag) : Nat → Option Nat → Parsed
  | 0, _ => .running
  | n + 1, limit =>
    match attempt M stop limit (tokCounts fs + 2) M.init ⟨.start c :: fs.map .frag, [], 0⟩ with
    | .running => .running
    | .parsed v remains => .found remains v
    | .error count => if limit = some 0 then .failure else attempts M stop c fs n (some (count - 1))

/-- `parse-bounded-constraint`; `parse-constraint` is the same with no stopping (constraint-parsing.dylan 9-138). -/
def parseConstraint (M : Machine) (stop : Frag → Bool) (c : Con) (fs : List Frag) : Parsed :=
  attempts M stop c fs (tokCounts fs + 4) none

/-- `match-expression-constraint` (pattern-back-end.dylan 317-335): one fragment that is a name, a literal or a parsed
form is taken as it is, else the parser is asked. -/
def matchExpression (M : Machine) (fs : List Frag) : Parsed :=
  match fs with
  | [] => .failure
  | [.name n] => .found [] (.one (.name n))
  | [.operator n] => .found [] (.one (.operator n))
  | [.lit v] => .found [] (.one (.lit v))
  | [.form n] => .found [] (.one (.form n))
  | fs => parseConstraint M (fun _ => false) .expression fs

end Verif.Macro
