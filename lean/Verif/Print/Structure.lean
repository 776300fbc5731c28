/-
Lists and vectors as `print` of the io library writes them, with `circle?: #f` and `pretty?: #f`:
sources/io/print.dylan. The objects are finite; other objects than lists and vectors write a text of their own
(for characters, strings and symbols see `Verif.Print.Escape`). `pprint-logical-block` wraps the stream in a
pretty printing stream, which without any `pprint-newline` passes the text on as it is; the pretty printer is not modelled.
-/

namespace Verif.Print

/-- Objects: the empty list, pairs, vectors, and anything else with its text. -/
inductive Obj where
  | other (text : List Char)
  | empty
  | pair (head tail : Obj)
  | vector (items : List Obj)

/-- `*print-level*` and `*print-length*`, print.dylan:42-47: `#f`, or an integer. -/
structure Limits where
  level : Option Int
  length : Option Int

/-- `requested-level & (depth > requested-level)`, print.dylan:302. -/
def Limits.tooDeep (l : Limits) (depth : Int) : Bool :=
  match l.level with
  | none => false
  | some n => decide (n < depth)

/-- `length & (count >= length)`, print.dylan:588, and `length & (length <= 0)`, line 571. -/
def Limits.reached (l : Limits) (count : Nat) : Bool :=
  match l.length with
  | none => false
  | some n => decide (n ≤ count)

/-- `length & (count = length)`, print.dylan:798. -/
def Limits.equal (l : Limits) (count : Nat) : Bool :=
  match l.length with
  | none => false
  | some n => decide ((count : Int) = n)

mutual

/-- `maybe-print-object`, print.dylan:297-321, with the depth of the caller; then `print-object` for lists, lines
    560-566, vectors, lines 652-657, and other objects. -/
def print (l : Limits) (depth : Int) : Obj → List Char
  | .other t => if l.tooDeep (depth + 1) then ['#'] else t
  | .empty => if l.tooDeep (depth + 1) then ['#'] else ['#', '('] ++ [')']
  | .pair h t =>
    if l.tooDeep (depth + 1) then ['#']
    else ['#', '('] ++
      (if l.reached 0 then ['.', '.', '.'] else print l (depth + 1) h ++ printTail l (depth + 1) 1 t) ++ [')']
  | .vector items =>
    if l.tooDeep (depth + 1) then ['#'] else ['#', '['] ++ printItems l (depth + 1) 0 items ++ [']']

/-- The loop of `print-list`, print.dylan:577-641. -/
def printTail (l : Limits) (depth : Int) (count : Nat) : Obj → List Char
  | .empty => []
  | .other t => [' ', '.', ' '] ++ (if l.tooDeep (depth + 1) then ['#'] else t)
  | .vector items => [' ', '.', ' '] ++
    (if l.tooDeep (depth + 1) then ['#'] else ['#', '['] ++ printItems l (depth + 1) 0 items ++ [']'])
  | .pair h t => [',', ' '] ++
    (if l.reached count then ['.', '.', '.'] else print l depth h ++ printTail l depth (count + 1) t)

/-- The loop of `print-items`, print.dylan:792-803. -/
def printItems (l : Limits) (depth : Int) (count : Nat) : List Obj → List Char
  | [] => []
  | x :: xs => (if count ≠ 0 then [',', ' '] else []) ++
    (if l.equal count then ['.', '.', '.'] else print l depth x ++ printItems l depth (count + 1) xs)

end

/-- `print(object, stream, level:, length:)` at the top, print.dylan:203-235: `*print-depth*` is -1 (line 65). -/
def printTop (l : Limits) (o : Obj) : List Char := print l (-1) o

end Verif.Print
