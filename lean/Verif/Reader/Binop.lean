/-
Model of the grouping of binary operators in the reader: the "binop sequences" of
/repo/sources/dfmc/reader/parser-support.dylan, as the parser calls them (`infix-parser.dylan:350-360`).

An operand is anything that the grammar allows between two binary operators (a literal, a name, a call, an
expression in parentheses, a unary operator with its operand): it is a leaf here.  Source positions are
left out.
-/
namespace Verif.Reader

/-- The binary operators: the names for which `operator-precedence` has a value
    (`parser-support.dylan:182-191`), which are also those that the lexer makes. -/
inductive Op where
  | assign | and | or | eq | ne | same | notSame | lt | gt | le | ge | plus | minus | times | divide | power
  deriving DecidableEq, Repr

/-- Fragments made of operands `α`: `node true` is a `<function-macro-fragment>` with the two arguments and
    a comma, `node false` a `<binary-operator-call-fragment>`. -/
inductive Expr (α : Type) where
  | leaf (a : α)
  | node (mac : Bool) (op : Op) (l r : Expr α)
  deriving DecidableEq, Repr

/-- `type-union(<fragment>, <binop-sequence>)` (`parser-support.dylan:72-83`): a fragment, or a sequence
    with `previous:`, `operator:` and `argument:`. -/
inductive Seq (α : Type) where
  | frag (e : Expr α)
  | seq (previous : Seq α) (operator : Op) (argument : Expr α)
  deriving DecidableEq, Repr

variable {α : Type}

/-- `operator-precedence` (`parser-support.dylan:182-191`). -/
def precedence : Op → Nat
  | .power => 9
  | .times | .divide => 7
  | .plus | .minus => 5
  | .eq | .ne | .same | .notSame | .lt | .gt | .le | .ge => 4
  | .and | .or => 2
  | .assign => 1

/-- `right-associative?` (`parser-support.dylan:193-198`). -/
def rightAssociative : Op → Bool
  | .assign | .power => true
  | _ => false

/-- `left-associative?` (`parser-support.dylan:200-202`). -/
def leftAssociative (o : Op) : Bool := !rightAssociative o

/-- `macro-operator-fragment?` (`parser-support.dylan:164-169`). -/
def macroOperator : Op → Bool
  | .assign | .and | .or => true
  | _ => false

/-- `fold-one-binop-aux!` on a fragment (`parser-support.dylan:141-162`). -/
def foldFragment (l : Expr α) (op : Op) (r : Expr α) : Expr α := .node (macroOperator op) op l r

/-- `fold-one-binop!` of the sequence with these slots (`parser-support.dylan:137-139, 171-176`). -/
def foldOne : Seq α → Op → Expr α → Seq α
  | .frag l, op, r => .frag (foldFragment l op r)
  | .seq p op' l, op, r => .seq p op' (foldFragment l op r)

/-- The number of operators that are pending. -/
def Seq.pending : Seq α → Nat
  | .frag _ => 0
  | .seq p _ _ => p.pending + 1

/-- `fold-tighter-binops` (`parser-support.dylan:119-135`), by recursion over the number of operators that
    are pending, which a fold makes one less. -/
def foldTighter (prec : Nat) (left : Bool) : Nat → Seq α → Seq α
  | _, .frag f => .frag f
  | 0, s => s
  | n + 1, .seq p op a =>
    if precedence op > prec ∨ (precedence op = prec ∧ left = true) then foldTighter prec left n (foldOne p op a)
    else .seq p op a

/-- `append-binop!` (`parser-support.dylan:93-117`): it calls itself after folding; recursion over the number
    of operators that are pending. -/
def append (new : Op) (arg : Expr α) : Nat → Seq α → Seq α
  | _, .frag f => .seq (.frag f) new arg
  | 0, s => s
  | n + 1, .seq p op a =>
    if precedence op < precedence new ∨ (precedence op = precedence new ∧ leftAssociative new = false) then
      .seq (.seq p op a) new arg
    else append new arg n (foldTighter (precedence new) (leftAssociative new) n (foldOne p op a))

/-- `append-binop!`. -/
def appendBinop (s : Seq α) (new : Op) (arg : Expr α) : Seq α := append new arg s.pending s

/-- `binop-fragment` (`parser-support.dylan:85-91`), by recursion over the number of operators that are
    pending. -/
def fragmentOf : Nat → Seq α → Expr α
  | _, .frag f => f
  | 0, .seq _ _ a => a
  | n + 1, .seq p op a => fragmentOf n (foldOne p op a)

/-- `binop-fragment`. -/
def binopFragment (s : Seq α) : Expr α := fragmentOf s.pending s

/-- What the parser does with an operand followed by operators and operands: it appends them from left to
    right, and takes the fragment at the end (`infix-parser.dylan:350-360`). -/
def parse (first : α) (rest : List (Op × α)) : Expr α :=
  binopFragment (rest.foldl (fun s x => appendBinop s x.1 (.leaf x.2)) (.frag (.leaf first)))

end Verif.Reader
