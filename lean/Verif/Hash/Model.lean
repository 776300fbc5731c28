/-
Model of the functions by which the tables of the Dylan library compare and hash their keys:
/repo/sources/dylan/hashing.dylan, comparison.dylan, the table protocols in table.dylan and
symbol-table.dylan, and `=` on strings (string.dylan, speed.dylan) and on collections
(collection.dylan).  Machine words have 64 bits.

Simplifications: the hash state is left out (the dependency of an address-based hash code on the
collector is in the model of tables, `Verif.Table`); big integers, classes and generic `=` methods
of users are left out.
-/

namespace Verif.Hash

abbrev Word := BitVec 64

/-! ### hash codes from machine words -/

/-- `machine-word-is-integer?` (`conversion-tagged-integer.dylan:82-88`). -/
def isInteger (x : Word) : Bool :=
  x.sshiftRight 61 == 0 || x.sshiftRight 61 == -1

/-- `force-integer-tag` (`conversion-tagged-integer.dylan:45-48`). -/
def forceTag (x : Word) : Word := (x &&& ~~~3) + 1

/-- The integer a tagged word stands for (`conversion-tagged-integer.dylan:25-28`). -/
def untag (x : Word) : Int := (x.sshiftRight 2).toInt

/-- `machine-word-as-hash-index` (`machine-word-lowlevel.dylan:68-75`). -/
def hashIndex (x : Word) : Int :=
  if isInteger x then x.toInt else untag (forceTag x)

/-- `logxor` of two integers. -/
def logxor (a b : Int) : Int := (BitVec.ofInt 64 a ^^^ BitVec.ofInt 64 b).toInt

/-- `merge-hash-ids` (`hashing.dylan:42-54`). -/
def mergeIds (a b : Int) (ordered : Bool) : Int :=
  let c := if ordered then hashIndex ((BitVec.ofInt 64 a).rotateLeft 5) else a
  logxor b c

/-! ### object tables -/

/-- What is at an address.  The first four are the instances of value classes
    (`dfmc/modeling/objects.dylan:75-105`); `other` is any other object. -/
inductive Box where
  | word (w : Word)
  | double (low high : Word)
  | single (bits : BitVec 32)
  | doubleFloat (bits : BitVec 64)
  | other
  deriving DecidableEq

/-- An object: immediate, or a reference to a box.  The two booleans are objects of their own,
    each at one address. -/
inductive Obj where
  | int (i : Int)
  | bool (b : Bool)
  | char (code : Nat)
  | ref (id : Nat)
  deriving DecidableEq

/-- IEEE equality of single floats given by their bits (`primitive-single-float-equals?`). -/
def eq32 (a b : BitVec 32) : Bool :=
  !(0x7F800000#32 < a &&& 0x7FFFFFFF#32) && !(0x7F800000#32 < b &&& 0x7FFFFFFF#32) &&
    (a == b || (a &&& 0x7FFFFFFF#32 == 0 && b &&& 0x7FFFFFFF#32 == 0))

/-- IEEE equality of double floats given by their bits (`primitive-double-float-equals?`). -/
def eq64 (a b : BitVec 64) : Bool :=
  !(0x7FF0000000000000#64 < a &&& 0x7FFFFFFFFFFFFFFF#64) &&
  !(0x7FF0000000000000#64 < b &&& 0x7FFFFFFFFFFFFFFF#64) &&
    (a == b || (a &&& 0x7FFFFFFFFFFFFFFF#64 == 0 && b &&& 0x7FFFFFFFFFFFFFFF#64 == 0))

/-- `=` on two instances of the same value class (`machine-word-lowlevel.dylan:146`,
    `double-integer-basics.dylan:86-90`, `float.dylan:167-172,294-299`); false if the classes
    differ or are not value classes. -/
def valueEq : Box → Box → Bool
  | .word a, .word b => a == b
  | .double l h, .double l' h' => l == l' && h == h'
  | .single a, .single b => eq32 a b
  | .doubleFloat a, .doubleFloat b => eq64 a b
  | _, _ => false

/-- `==` (`comparison.dylan:55-64`), in a heap `H`. -/
def identical (H : Nat → Box) : Obj → Obj → Bool
  | .ref a, .ref b => a == b || valueEq (H a) (H b)
  | x, y => x == y

/-- `object-hash` (`hashing.dylan:81-128`), in a heap `H` with the boxes at the addresses `addr`.
    There is no method for double floats: they are hashed by the method for all objects. -/
def objectHash (H : Nat → Box) (addr : Nat → Word) : Obj → Int
  | .int i => i
  | .bool b => if b then 144223 else 191999
  | .char c => c + 232333
  | .ref a =>
    match H a with
    | .word w => hashIndex w
    | .double l h => mergeIds (hashIndex l) (hashIndex h) true
    | .single b => hashIndex (b.setWidth 64)
    | .doubleFloat _ => hashIndex (addr a)
    | .other => hashIndex (addr a)

/-! ### string tables -/

/-- A string: is it a `<unicode-string>`, and the codes of its characters. -/
structure Str where
  unicode : Bool
  codes : List Nat
  deriving DecidableEq

/-- The loop of `=` on two strings of one class (`string.dylan:223-235`): `eq` is the result of
    comparing the characters before. -/
def sameLoop : Bool → List Nat → List Nat → Bool
  | eq, c :: cs, d :: ds => if eq then sameLoop (c == d) cs ds else eq
  | eq, _, _ => eq

/-- The loop `grovel` of `=` on vectors (`speed.dylan:10-17`), from index `i` with `n` to come. -/
def grovel (x y : List Nat) : Nat → Nat → Bool
  | _, 0 => true
  | i, n + 1 => x[i]? == y[i]? && grovel x y (i + 1) n

/-- `=` on strings, of one class or of different ones. -/
def strEq (x y : Str) : Bool :=
  if x.unicode = y.unicode then
    if x.codes.length ≠ y.codes.length then false else sameLoop true x.codes y.codes
  else x.codes.length == y.codes.length && grovel x.codes y.codes 0 x.codes.length

/-- `string-hash` (`hashing.dylan:130-160`); `none` if an index is out of range. -/
def stringHash (s : Str) : Option Int :=
  let len := s.codes.length
  if len ≤ 30 then
    some (s.codes.foldl (fun (hash : Int) (c : Nat) => (hash * 64 + c) % 970747) len)
  else
    let next (hash : Int) (i : Nat) : Option Int :=
      (s.codes[i]?).map fun (c : Nat) => mergeIds hash (c + 232333) true
    (next len 0).bind fun h => (next h (len / 2)).bind fun h => next h (len - 1)

/-! ### symbol tables -/

/-- `as-lowercase` on byte characters (`character.dylan:43-51,125-140`). -/
def lower (c : BitVec 8) : BitVec 8 := if 0x41#8 ≤ c ∧ c ≤ 0x5A#8 then c + (0x61#8 - 0x41#8) else c

/-- The loop of `case-insensitive-string-equal-2` (`symbol-table.dylan:24-37`), from index `i` with
    `n` to come. -/
def ciLoop (x y : List (BitVec 8)) : Nat → Nat → Bool
  | _, 0 => true
  | i, n + 1 =>
    match x[i]?, y[i]? with
    | some c, some d => (c == d || lower c == lower d) && ciLoop x y (i + 1) n
    | _, _ => false

/-- `case-insensitive-string-equal` (`symbol-table.dylan:16-37`). -/
def ciEq (x y : List (BitVec 8)) : Bool :=
  x.length == y.length && ciLoop x y 0 y.length

/-- `case-insensitive-string-hash` (`hashing.dylan:186-201`). -/
def ciHash (x : List (BitVec 8)) : Int :=
  x.foldl (fun hash c => (hash * 64 + ((c &&& 0x9F#8).toNat : Int)) % 970747) 0

/-! ### collections -/

section collections
variable {K E : Type}

/-- `element` with a default (the first key that passes the test). -/
def find (test : K → K → Bool) (k : K) : List (K × E) → Option E
  | [] => none
  | (k', e) :: l => if test k' k then some e else find test k l

/-- The loop of `=` on collections (`collection.dylan:919-928`). -/
def collLoop (test : K → K → Bool) (eq : E → E → Bool) (c2 : List (K × E)) :
    Bool → List (K × E) → Bool
  | b, [] => b
  | b, (k, e1) :: l =>
    if b then
      collLoop test eq c2
        (match find test k c2 with
         | none => false
         | some e2 => eq e1 e2) l
    else b

/-- `=` on two collections with the same key test (`collection.dylan:917-929`), given by their keys
    and elements in the order of iteration. -/
def collEq (test : K → K → Bool) (eq : E → E → Bool) (c1 c2 : List (K × E)) : Bool :=
  if c1.length ≠ c2.length then false else collLoop test eq c2 true c1

/-- `collection-hash` (`hashing.dylan:221-233`). -/
def collectionHash (keyHash : K → Int) (elementHash : E → Int) (ordered : Bool)
    (c : List (K × E)) : Int :=
  c.foldl (fun id p => mergeIds id (mergeIds (elementHash p.2) (keyHash p.1) true) ordered) 0

/-- `=` on two sequences (`collection.dylan:957-972`). -/
def seqEq (eq : E → E → Bool) : List E → List E → Bool
  | [], [] => true
  | [], _ :: _ => false
  | _ :: _, [] => false
  | a :: as, b :: bs => eq a b && seqEq eq as bs

/-- `sequence-hash` (`hashing.dylan:242-252`), and `values-hash` (`hashing.dylan:255-259`). -/
def sequenceHash (elementHash : E → Int) (s : List E) : Int :=
  s.foldl (fun id e => mergeIds id (elementHash e) true) 0

end collections

end Verif.Hash
