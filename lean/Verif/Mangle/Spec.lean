import Verif.Mangle.Model
/-
Specification side of the name mangler: what a name reads like in a back-trace, and which names are
ordinary.
-/
namespace Verif.Mangle

/-- A name that contains neither of the two characters `#` and `,` that the mangler also uses as
separators. -/
def Ordinary (name : List Byte) : Prop := code '#' ∉ name ∧ code ',' ∉ name

instance (name : List Byte) : Decidable (Ordinary name) := by unfold Ordinary; infer_instance

/-- The characters of Dylan names (in lower case), after the Dylan Reference Manual. -/
def nameCharacters : List Byte :=
  str ['a', 'b', 'c', 'd', 'e', 'f', 'g', 'h', 'i', 'j', 'k', 'l', 'm', 'n', 'o', 'p', 'q', 'r', 's', 't', 'u', 'v',
    'w', 'x', 'y', 'z', '0', '1', '2', '3', '4', '5', '6', '7', '8', '9', '!', '&', '*', '<', '>', '|', '^', '$', '%',
    '@', '_', '-', '+', '~', '?', '/', '=']

/-- A binding as it is written for a reader: `name:module:library`. -/
def display (varName modName libName : List Byte) : List Byte :=
  varName ++ [code ':'] ++ modName ++ [code ':'] ++ libName

/-- The number a string of digits stands for. -/
def decimalValue (digits : List Byte) : Nat := digits.foldl (fun v c => v * 10 + (c.val - 48)) 0

/-- The things that are given a name for the linker: constants and variables, methods of generic
functions (with number, in a library), local methods, domains, class wrappers, symbols, and anonymous
objects. -/
inductive Obj
  | constant (varName modName libName : List Byte)
  | method (varName modName libName : List Byte) (number : Nat) (methodLib : List Byte)
  | localMethod (name : List Byte) (number : Nat)
  | domain (varName modName libName : List Byte) (number : Nat) (domainLib : List Byte)
  | wrapper (varName modName libName : List Byte)
  | symbol (name : List Byte)
  | anonymous (number : Nat)
  deriving DecidableEq

/-- The names an object is known by are ordinary; the library of a method has a name. -/
def Obj.Ordinary : Obj → Prop
  | .constant v m l => Mangle.Ordinary v ∧ Mangle.Ordinary m ∧ Mangle.Ordinary l
  | .method v m l _ ml =>
    Mangle.Ordinary v ∧ Mangle.Ordinary m ∧ Mangle.Ordinary l ∧ Mangle.Ordinary ml ∧ ml ≠ []
  | .localMethod n _ => Mangle.Ordinary n
  | .domain v m l _ dl => Mangle.Ordinary v ∧ Mangle.Ordinary m ∧ Mangle.Ordinary l ∧ Mangle.Ordinary dl
  | .wrapper v m l => Mangle.Ordinary v ∧ Mangle.Ordinary m ∧ Mangle.Ordinary l
  | .symbol _ => True
  | .anonymous _ => True

/-- The linker name of an object (dfmc/back-end/emit-object.dylan 84-111, 115-226). -/
def Obj.linkName : Obj → List Byte
  | .constant v m l => mangleConstant (mangleBinding v m l)
  | .method v m l n ml => mangleGenericMethod (mangleBinding v m l) n ml l
  | .localMethod name n => mangleLocalMethod (mangleName name) n
  | .domain v m l n dl => mangleDomain (mangleBinding v m l) n (mangleName dl)
  | .wrapper v m l => mangleWrapper (mangleBinding v m l)
  | .symbol name => mangleSymbol name
  | .anonymous n => mangleConstant (mangleInteger n)

end Verif.Mangle
