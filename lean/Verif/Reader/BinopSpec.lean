/-
What the grouping of binary operators should be (Dylan Reference Manual, "Operators"), written without the
reader's tables.
-/
import Verif.Reader.Binop

namespace Verif.Reader.BinopSpec

variable {α : Type}

/-- The operators from the loosest to the tightest, as the manual lists them. -/
def levels : List (List Op) :=
  [[.assign], [.and, .or], [.eq, .ne, .same, .notSame, .lt, .gt, .le, .ge], [.plus, .minus],
   [.times, .divide], [.power]]

/-- The level of an operator: how many rows of the table come before its row. -/
def level (o : Op) : Nat := levels.findIdx (·.contains o)

/-- `:=` and `^` group from the right, the others from the left. -/
def fromRight (o : Op) : Bool := o == .assign || o == .power

/-- The first operand of an expression. -/
def firstOperand : Expr α → α
  | .leaf a => a
  | .node _ _ l _ => firstOperand l

/-- The operators and operands that follow the first one, in the order in which they are written. -/
def others : Expr α → List (Op × α)
  | .leaf _ => []
  | .node _ op l r => others l ++ (op, firstOperand r) :: others r

/-- `l` may be written without parentheses to the left of `op`. -/
def mayBeLeft (op : Op) : Expr α → Prop
  | .leaf _ => True
  | .node _ o _ _ => level op < level o ∨ (level op = level o ∧ fromRight op = false)

/-- `r` may be written without parentheses to the right of `op`. -/
def mayBeRight (op : Op) : Expr α → Prop
  | .leaf _ => True
  | .node _ o _ _ => level op < level o ∨ (level op = level o ∧ fromRight op = true)

/-- The expression needs no parentheses, and its macro calls are those of `:=`, `&` and `|`. -/
def Grouped : Expr α → Prop
  | .leaf _ => True
  | .node mac op l r =>
    Grouped l ∧ Grouped r ∧ mayBeLeft op l ∧ mayBeRight op r ∧
      (mac = true ↔ op = .assign ∨ op = .and ∨ op = .or)

end Verif.Reader.BinopSpec
