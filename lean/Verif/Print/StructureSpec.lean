import Verif.Print.Structure

/-
What printed lists and vectors look like: documentation/source/library-reference/io/print.rst.
-/

namespace Verif.Print

/-- What is shown: words, lists with the tail if it is not the empty list, vectors. -/
inductive Tree where
  | word (t : List Char)
  | list (items : List Tree) (last : Option Tree)
  | vector (items : List Tree)

/-- Texts with a comma and a space between them. -/
def commas : List (List Char) → List Char
  | [] => []
  | [t] => t
  | t :: ts => t ++ [',', ' '] ++ commas ts

mutual

/-- The text of a tree. -/
def Tree.text : Tree → List Char
  | .word t => t
  | .list ts last => ['#', '('] ++ commas (Tree.texts ts) ++ Tree.dotted last ++ [')']
  | .vector ts => ['#', '['] ++ commas (Tree.texts ts) ++ [']']

/-- The texts of some trees. -/
def Tree.texts : List Tree → List (List Char)
  | [] => []
  | t :: ts => t.text :: Tree.texts ts

/-- The last tail of a list. -/
def Tree.dotted : Option Tree → List Char
  | none => []
  | some t => [' ', '.', ' '] ++ t.text

end

/-- The first elements, and dots for the others. -/
def atMost (n : Option Nat) (ts : List Tree) : List Tree :=
  match n with
  | none => ts
  | some n => if ts.length ≤ n then ts else ts.take n ++ [.word ['.', '.', '.']]

/-- The last tail is shown if all elements are. -/
def lastAtMost (n : Option Nat) (len : Nat) (last : Option Tree) : Option Tree :=
  match n with
  | none => last
  | some n => if len ≤ n then last else none

/-- One level further down. -/
def below : Option Int → Option Int
  | none => none
  | some n => some (n - 1)

/-- No level is left. -/
def noLevel : Option Int → Bool
  | none => false
  | some n => decide (n < 0)

mutual

/-- What is shown of a tree: a number sign for what is too deep, dots for elements beyond the length. -/
def Tree.cut (length : Option Nat) (level : Option Int) : Tree → Tree
  | .word t => if noLevel level then .word ['#'] else .word t
  | .list ts last => if noLevel level then .word ['#'] else
      .list (atMost length (Tree.cuts length (below level) ts))
        (lastAtMost length ts.length (Tree.cutLast length (below level) last))
  | .vector ts => if noLevel level then .word ['#'] else .vector (atMost length (Tree.cuts length (below level) ts))

/-- What is shown of some trees. -/
def Tree.cuts (length : Option Nat) (level : Option Int) : List Tree → List Tree
  | [] => []
  | t :: ts => t.cut length level :: Tree.cuts length level ts

/-- What is shown of the last tail. -/
def Tree.cutLast (length : Option Nat) (level : Option Int) : Option Tree → Option Tree
  | none => none
  | some t => some (t.cut length level)

end

mutual

/-- An object as a tree. -/
def Obj.tree : Obj → Tree
  | .other t => .word t
  | .empty => .list [] none
  | .pair h t => .list (h.tree :: t.elements) t.last
  | .vector xs => .vector (Obj.trees xs)

/-- The elements of a list. -/
def Obj.elements : Obj → List Tree
  | .pair h t => h.tree :: t.elements
  | _ => []

/-- The last tail of a list, if that is not the empty list. -/
def Obj.last : Obj → Option Tree
  | .pair _ t => t.last
  | .empty => none
  | .other t => some (.word t)
  | .vector xs => some (.vector (Obj.trees xs))

/-- Some objects as trees. -/
def Obj.trees : List Obj → List Tree
  | [] => []
  | x :: xs => x.tree :: Obj.trees xs

end

mutual

/-- The texts of the objects in an object that are no lists and no vectors. -/
def Obj.words : Obj → List (List Char)
  | .other t => [t]
  | .empty => []
  | .pair h t => h.words ++ t.words
  | .vector xs => Obj.wordsOf xs

/-- The same for some objects. -/
def Obj.wordsOf : List Obj → List (List Char)
  | [] => []
  | x :: xs => x.words ++ Obj.wordsOf xs

end

/-- The text ends here, or a comma, a space or a bracket follows. -/
def Ends : List Char → Prop
  | [] => True
  | c :: _ => c ∈ [',', ' ', ')', ']']

/-- A set of texts of which one can tell where they end. -/
structure Distinct (W : List Char → Prop) : Prop where
  nonempty : ∀ t, W t → ¬ Ends t
  not_list : ∀ t r, W t → t ≠ '#' :: '(' :: r
  not_vector : ∀ t r, W t → t ≠ '#' :: '[' :: r
  ends : ∀ s t x y, W s → W t → Ends x → Ends y → s ++ x = t ++ y → s = t

end Verif.Print
