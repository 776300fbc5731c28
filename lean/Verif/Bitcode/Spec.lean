import Verif.Bitcode.Model

/-!
# The bitcode format

A reader of the format, as LLVM's document "LLVM Bitcode File Format" describes it: bits of bytes from the lowest, numbers
of a fixed width, numbers in chunks whose highest bit tells that there is another one, abbreviation ids 0 to 3 for the end
of a block, a block, the definition of an abbreviation and a record without one.  It does not use the model.
-/

namespace Verif.Bitcode

/-- The bits of a number, the lowest first. -/
def bitsOf (n v : Nat) : List Bool := (List.range n).map v.testBit

/-- The number with these bits. -/
def number : List Bool → Nat
  | [] => 0
  | b :: l => b.toNat + 2 * number l

/-- The bits of a file. -/
def fileBits (bytes : List (BitVec 8)) : List Bool := bytes.flatMap fun b => bitsOf 8 b.toNat

/-- A reader. -/
abbrev R (α : Type) := List Bool → Option (α × List Bool)

def R.bind {α β : Type} (r : R α) (f : α → R β) : R β := fun bits =>
  match r bits with
  | none => none
  | some (a, rest) => f a rest

def R.pure {α : Type} (a : α) : R α := fun bits => some (a, bits)

/-- `fixed`. -/
def readFixed (n : Nat) : R Nat := fun bits => if n ≤ bits.length then some (number (bits.take n), bits.drop n) else none

/-- `vbr`, with a bound on the number of chunks. -/
def vbrChunks (n : Nat) : Nat → R Nat
  | 0 => fun _ => none
  | k + 1 => R.bind (readFixed n) fun c =>
    if c < 2 ^ (n - 1) then R.pure c else R.bind (vbrChunks n k) fun r => R.pure (c - 2 ^ (n - 1) + 2 ^ (n - 1) * r)

/-- `vbr`. -/
def readVbr (n : Nat) : R Nat := fun bits => vbrChunks n bits.length bits

/-- To the next multiple of 32 bits, in a file that ends at one. -/
def readAlign : R Unit := fun bits => some ((), bits.drop (bits.length % 32))

/-- A number of things. -/
def times {α : Type} (r : R α) : Nat → R (List α)
  | 0 => R.pure []
  | n + 1 => R.bind r fun a => R.bind (times r n) fun l => R.pure (a :: l)

/-- `char6`: the code of the character. -/
def readChar6 : R Nat := R.bind (readFixed 6) fun c =>
  match ("abcdefghijklmnopqrstuvwxyzABCDEFGHIJKLMNOPQRSTUVWXYZ0123456789._".toList.map Char.toNat)[c]? with
  | some x => R.pure x
  | none => fun _ => none

/-- An element of an array. -/
def readElement : Op → R Nat
  | .fixed w => readFixed w
  | .vbr w => readVbr w
  | .char6 => readChar6
  | _ => fun _ => none

/-- The fields of a record with an abbreviation. -/
def readOps : List Op → R (List Nat)
  | [] => R.pure []
  | .literal n :: ops => R.bind (readOps ops) fun l => R.pure (n.toNat :: l)
  | .fixed w :: ops => R.bind (readFixed w) fun a => R.bind (readOps ops) fun l => R.pure (a :: l)
  | .vbr w :: ops => R.bind (readVbr w) fun a => R.bind (readOps ops) fun l => R.pure (a :: l)
  | .char6 :: ops => R.bind readChar6 fun a => R.bind (readOps ops) fun l => R.pure (a :: l)
  | .array :: e :: ops =>
    R.bind (readVbr 6) fun n => R.bind (times (readElement e) n) fun a => R.bind (readOps ops) fun l => R.pure (a ++ l)
  | .array :: [] => fun _ => none
  | .blob :: ops =>
    R.bind (readVbr 6) fun n => R.bind readAlign fun _ => R.bind (times (readFixed 8) n) fun a =>
      R.bind readAlign fun _ => R.bind (readOps ops) fun l => R.pure (a ++ l)

/-- An operand in the definition of an abbreviation. -/
def readOp : R Op :=
  R.bind (readFixed 1) fun isLiteral =>
    if isLiteral = 1 then R.bind (readVbr 8) fun n => R.pure (.literal (BitVec.ofNat 64 n))
    else R.bind (readFixed 3) fun e =>
      if e = 1 then R.bind (readVbr 5) fun w => R.pure (.fixed w)
      else if e = 2 then R.bind (readVbr 5) fun w => R.pure (.vbr w)
      else if e = 3 then R.pure .array
      else if e = 4 then R.pure .char6
      else if e = 5 then R.pure .blob
      else fun _ => none

/-- What a file contains: records, the first field being the code, and blocks. -/
inductive Data where
  | record (fields : List Nat)
  | block (id : Nat) (items : List Data)

/-- The items up to the end of the block, or, outside all blocks, of the file.  The first argument bounds the number of
steps. -/
def readItems : Nat → Bool → Nat → List (List Op) → R (List Data)
  | 0, _, _, _ => fun _ => none
  | k + 1, top, width, abbrevs => fun bits =>
    if top = true ∧ bits = [] then some ([], [])
    else R.bind (readFixed width) (fun id =>
      if id = 0 then R.bind readAlign fun _ => R.pure []
      else if id = 1 then
        R.bind (readVbr 8) fun block => R.bind (readVbr 4) fun w => R.bind readAlign fun _ =>
          R.bind (readFixed 32) fun words => fun bits =>
            R.bind (readItems k false w []) (fun body => fun rest =>
              -- the length of the block, which readers that skip it rely on
              if bits.length = 32 * words + rest.length then
                R.bind (readItems k top width abbrevs) (fun l => R.pure (.block block body :: l)) rest
              else none) bits
      else if id = 2 then
        R.bind (readVbr 5) fun n => R.bind (times readOp n) fun ops => readItems k top width (abbrevs ++ [ops])
      else if id = 3 then
        R.bind (readVbr 6) fun code => R.bind (readVbr 6) fun n => R.bind (times (readVbr 6) n) fun fields =>
          R.bind (readItems k top width abbrevs) fun l => R.pure (.record (code :: fields) :: l)
      else match abbrevs[id - 4]? with
        | none => fun _ => none
        | some ops => R.bind (readOps ops) fun fields =>
          R.bind (readItems k top width abbrevs) fun l => R.pure (.record fields :: l)) bits

/-- A file. -/
def readFile (bytes : List (BitVec 8)) : Option (List Data) :=
  match readItems ((fileBits bytes).length + 1) true 2 [] (fileBits bytes) with
  | some (l, []) => some l
  | _ => none

/-! ### What a program means to write -/

/-- The number. -/
def Scalar.toNat : Scalar → Nat
  | .word w => w.toNat
  | .double low high => low.toNat + 2 ^ 64 * high.toNat

/-- The numbers. -/
def Operand.fields : Operand → List Nat
  | .one s => [s.toNat]
  | .many l => l.map Scalar.toNat

/-- The fields of a record with an abbreviation: its literals, with the operands in the other places. -/
def fieldsOf : List Op → List Operand → List Nat
  | .literal n :: ops, vs => n.toNat :: fieldsOf ops vs
  | .array :: _ :: ops, v :: vs => v.fields ++ fieldsOf ops vs
  | _ :: ops, v :: vs => v.fields ++ fieldsOf ops vs
  | _, _ => []

/-- The abbreviation of a name. -/
def abbrevOf (name : String) : List (String × List Op) → List Op
  | [] => []
  | p :: l => if p.1 = name then p.2 else abbrevOf name l

mutual
/-- What an item means, with the abbreviations defined before. -/
def Item.meaning (defs : List (String × List Op)) : Item → List Data
  | .record code operands => [.record (code.toNat :: operands.flatMap Operand.fields)]
  | .define _ _ => []
  | .short name values => [.record (fieldsOf (abbrevOf name defs) values)]
  | .block id _ items => [.block id.toNat (meaningAll [] items)]
def meaningAll (defs : List (String × List Op)) : List Item → List Data
  | [] => []
  | .define name ops :: l => meaningAll (defs ++ [(name, ops)]) l
  | i :: l => i.meaning defs ++ meaningAll defs l
end

/-! ### Programs that use the writer as they should -/

/-- A number of bits that `fixed` and `vbr` take. -/
def Op.ok : Op → Prop
  | .literal n => n.toNat < 128
  | .fixed w => 1 ≤ w ∧ w ≤ 32
  | .vbr w => 2 ≤ w ∧ w ≤ 32
  | _ => True

/-- A number that an operand of an abbreviation can hold. -/
def Op.holds : Op → Scalar → Prop
  | .fixed w, .word v => v.toNat < 2 ^ w
  | .vbr _, _ => True
  | .char6, .word c => c.toNat ∈ charset
  | _, _ => False

/-- What the elements of an array can be. -/
def Op.element : Op → Prop
  | .fixed _ | .vbr _ | .char6 => True
  | _ => False

/-- Operands as the abbreviation wants them. -/
def fits : List Op → List Operand → Prop
  | [], vs => vs = []
  | .literal _ :: ops, vs => fits ops vs
  | .fixed w :: ops, vs => ∃ v vs', vs = .one v :: vs' ∧ (Op.fixed w).holds v ∧ fits ops vs'
  | .vbr _ :: ops, vs => ∃ v vs', vs = .one v :: vs' ∧ fits ops vs'
  | .char6 :: ops, vs => ∃ v vs', vs = .one v :: vs' ∧ Op.char6.holds v ∧ fits ops vs'
  | .array :: ops, vs => ∃ e l, ops = [e] ∧ vs = [.many l] ∧ e.element ∧ l.length < 2 ^ 64 ∧ ∀ v ∈ l, e.holds v
  | .blob :: ops, vs => ∃ l, ops = [] ∧ vs = [.many l] ∧ l.length < 2 ^ 64 ∧
    ∀ v ∈ l, ∃ w : BitVec 64, v = .word w ∧ w.toNat < 256

mutual
/-- An item in a block of this width, with the abbreviations defined before. -/
def Item.ok (width : Nat) (defs : List (String × List Op)) : Item → Prop
  | .record _ operands => (operands.flatMap Operand.fields).length < 2 ^ 64 ∧ ∀ o ∈ operands.dropLast, ∃ s, o = .one s
  | .define name ops => name ∉ defs.map Prod.fst ∧ ops.length < 2 ^ 64 ∧ ∀ o ∈ ops, o.ok
  | .short name values => name ∈ defs.map Prod.fst ∧ 4 + defs.length ≤ 2 ^ width ∧ fits (abbrevOf name defs) values
  | .block _ w items => 2 ≤ w ∧ w ≤ 32 ∧ okAll w [] items
def okAll (width : Nat) (defs : List (String × List Op)) : List Item → Prop
  | [] => True
  | .define name ops :: l => (Item.define name ops).ok width defs ∧ okAll width (defs ++ [(name, ops)]) l
  | i :: l => i.ok width defs ∧ okAll width defs l
end

/-- Outside all blocks there are only blocks. -/
def okFile (items : List Item) : Prop := okAll 2 [] items ∧ ∀ i ∈ items, ∃ id w l, i = .block id w l

end Verif.Bitcode
