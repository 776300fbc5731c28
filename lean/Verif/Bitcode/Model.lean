/-!
# The writer of LLVM bitcode

`sources/lib/llvm/bitcode.dylan` (BC): a stream of bits with abbreviations, records and nested blocks.

Machine words have 64 bits.  The inner stream is the bytes written and a position.  A writer is a function from streams to
streams; `none` is an error.

Simplifications: records are given by their codes, not by their names (BC:348-358); definitions in the `BLOCKINFO` block
(BC:301-311, BC:434-452) are not modelled, so a block starts without abbreviations; characters are given by their codes; the loops of
`write-vbr` have a bound on their rounds, which is never reached when a chunk has two bits or more.
-/

namespace Verif.Bitcode

/-- An operand of an abbreviation (BC:362-387): an integer, or an instance of `<abbrev-op>`. -/
inductive Op where
  | literal (n : BitVec 64)
  | fixed (w : Nat)
  | vbr (w : Nat)
  | array
  | char6
  | blob
  deriving DecidableEq, Repr

/-- `<bitcode-abbrev-definition>` (BC:414-419). -/
structure Def where
  id : Nat
  ops : List Op
  deriving DecidableEq, Repr

/-- `<bitcode-stream>` (BC:18-25) and its inner stream. -/
structure Stream where
  bytes : List (BitVec 8)
  pos : Nat
  acc : BitVec 64
  size : Nat
  width : Nat
  defs : List (String × Def)
  deriving DecidableEq, Repr

/-- A new stream on an empty file. -/
def start : Stream := ⟨[], 0, 0, 0, 2, []⟩

/-- A writer. -/
abbrev W := Stream → Option Stream

/-- One after the other. -/
def W.seq (f g : W) : W := fun s => (f s).bind g

/-- `do(f, l)`. -/
def forEach {α : Type} (f : α → W) : List α → W
  | [] => some
  | a :: l => W.seq (f a) (forEach f l)

/-- Bytes written on the inner stream at its position. -/
def writeBytes (b : List (BitVec 8)) (s : Stream) : Stream :=
  { s with bytes := s.bytes.take s.pos ++ b ++ s.bytes.drop (s.pos + b.length), pos := s.pos + b.length }

/-- `bitcode-flush` (BC:29-47). -/
def flush (s : Stream) : Stream :=
  writeBytes [(s.acc &&& 0xff).setWidth 8, (s.acc.sshiftRight 8 &&& 0xff).setWidth 8,
    (s.acc.sshiftRight 16 &&& 0xff).setWidth 8, (s.acc.sshiftRight 24 &&& 0xff).setWidth 8] s

/-- `write-fixed` (BC:49-81). -/
def writeFixed (bits : Nat) (value : BitVec 64) : W := fun s =>
  let slack := 32 - s.size
  let t := { s with acc := s.acc ||| value <<< s.size, size := s.size + bits }
  some (if t.size ≥ 32 then
    let u := flush t
    { u with size := u.size - 32, acc := if slack < 32 then value >>> slack else 0 }
  else t)

/-- `write-abbrev-id` (BC:83-87). -/
def writeId (id : Nat) : W := fun s => writeFixed s.width (BitVec.ofNat 64 id) s

/-- The loop of `write-vbr` (BC:94-103). -/
def vbrLoop (bits : Nat) (limit mask : BitVec 64) : Nat → BitVec 64 → W
  | 0, _ => fun _ => none
  | n + 1, value =>
    if value < limit then writeFixed bits value
    else W.seq (writeFixed bits (limit ||| (value &&& mask))) (vbrLoop bits limit mask n (value >>> (bits - 1)))

/-- `write-vbr` of a word (BC:89-104). -/
def writeVbrWord (bits : Nat) (value : BitVec 64) : W :=
  let limit : BitVec 64 := 1#64 <<< (bits - 1)
  vbrLoop bits limit (limit - 1) 64 value

/-- The loop of `write-vbr-aux` (BC:141-153); `ud%shift-right` shifts the two words as one. -/
def auxLoop (bits : Nat) (limit mask : BitVec 64) : Nat → BitVec 64 → BitVec 64 → W
  | 0, _, _ => fun _ => none
  | n + 1, low, high =>
    if high = 0 ∧ low < limit then writeFixed bits low
    else
      W.seq (writeFixed bits (limit ||| (low &&& mask)))
        (auxLoop bits limit mask n (((high ++ low) >>> (bits - 1)).setWidth 64)
          (((high ++ low) >>> (bits - 1)) >>> 64 |>.setWidth 64))

/-- `write-vbr-aux` (BC:135-154). -/
def writeVbrAux (bits : Nat) (low high : BitVec 64) : W :=
  let limit : BitVec 64 := 1#64 <<< (bits - 1)
  auxLoop bits limit (limit - 1) 128 low high

/-- A number that is written: an integer, character or machine word as a word, or two words. -/
inductive Scalar where
  | word (w : BitVec 64)
  | double (low high : BitVec 64)
  deriving DecidableEq, Repr

/-- `write-vbr` (BC:89-133). -/
def writeVbr (bits : Nat) : Scalar → W
  | .word w => writeVbrWord bits w
  | .double low high => writeVbrAux bits low high

/-- `write-vbr` of a size. -/
def writeVbrNat (bits : Nat) (n : Nat) : W := writeVbrWord bits (BitVec.ofNat 64 n)

/-- `write-fixed` of a number; there is no method for two words. -/
def writeFixedScalar (bits : Nat) : Scalar → W
  | .word w => writeFixed bits w
  | .double _ _ => fun _ => none

/-- `as-signed-vbr` of an integer (BC:156-163), which is given as a machine word. -/
def asSignedWord (value : BitVec 64) : BitVec 64 :=
  if value.slt 0 then ((-value) <<< 1) ||| 1 else value <<< 1

/-- `as-signed-vbr` of a double integer (BC:165-183); `ud%shift-left` shifts the two words as one. -/
def asSignedDouble (low high : BitVec 64) : BitVec 64 × BitVec 64 :=
  if high.slt 0 then
    let lowNeg := ~~~low + 1
    let carry : BitVec 64 := if (~~~low).toNat + 1 ≥ 2 ^ 64 then 1 else 0
    let highNeg := ~~~high + carry
    let d := (highNeg ++ lowNeg) <<< 1
    (d.setWidth 64 ||| 1, (d >>> 64).setWidth 64)
  else
    let d := (high ++ low) <<< 1
    (d.setWidth 64, (d >>> 64).setWidth 64)

/-- `write-alignword` (BC:185-193). -/
def align : W := fun s => some (if s.size = 0 then s else { flush s with size := 0, acc := 0 })

/-- `$char6-charset` (BC:195-196). -/
def charset : List Nat := "abcdefghijklmnopqrstuvwxyzABCDEFGHIJKLMNOPQRSTUVWXYZ0123456789._".toList.map Char.toNat

/-- `write-char6` (BC:198-204). -/
def writeChar6 : Scalar → W
  | .word c => if c.toNat ∈ charset then writeFixed 6 (BitVec.ofNat 64 (charset.idxOf c.toNat)) else fun _ => none
  | .double _ _ => fun _ => none

/-- The loop that pads with zeros (BC:219-221), which has at most three rounds. -/
def padLoop : Nat → Stream → Stream
  | 0, s => s
  | n + 1, s => if s.pos % 4 ≠ 0 then padLoop n (writeBytes [0] s) else s

/-- A byte vector. -/
def bytesOf : List Scalar → Option (List (BitVec 8))
  | [] => some []
  | .word w :: l => if w.toNat < 256 then (bytesOf l).map (w.setWidth 8 :: ·) else none
  | .double _ _ :: _ => none

/-- `write-blob` (BC:206-222). -/
def writeBlob (blob : List Scalar) : W := fun s =>
  (bytesOf blob).bind fun b =>
    W.seq (W.seq (writeVbrNat 6 b.length) align) (fun s => some (padLoop 3 (writeBytes b s))) s

/-- `encode-abbrev-op` (BC:389-412). -/
def encodeOp : Op → W
  | .literal n => W.seq (writeFixed 1 1) (writeFixed 8 n)
  | .fixed w => W.seq (writeFixed 1 0) (W.seq (writeFixed 3 1) (writeVbrNat 5 w))
  | .vbr w => W.seq (writeFixed 1 0) (W.seq (writeFixed 3 2) (writeVbrNat 5 w))
  | .array => W.seq (writeFixed 1 0) (writeFixed 3 3)
  | .char6 => W.seq (writeFixed 1 0) (writeFixed 3 4)
  | .blob => W.seq (writeFixed 1 0) (writeFixed 3 5)

/-- Whether an operand is an instance of `<abbrev-op>`. -/
def Op.isOp : Op → Bool
  | .literal _ => false
  | _ => true

/-- `definitions[name] := definition`. -/
def setDef (name : String) (d : Def) : List (String × Def) → List (String × Def)
  | [] => [(name, d)]
  | p :: l => if p.1 = name then (name, d) :: l else p :: setDef name d l

/-- `definitions[name]`. -/
def getDef (name : String) : List (String × Def) → Option Def
  | [] => none
  | p :: l => if p.1 = name then some p.2 else getDef name l

/-- `write-abbrev-definition` (BC:421-432). -/
def writeDefinition (name : String) (ops : List Op) : W := fun s =>
  let id := 4 + s.defs.length
  let s := { s with defs := setDef name ⟨id, ops.filter Op.isOp⟩ s.defs }
  W.seq (writeId 2) (W.seq (writeVbrNat 5 ops.length) (forEach encodeOp ops)) s

/-- An operand of a record: a number or a sequence. -/
inductive Operand where
  | one (s : Scalar)
  | many (l : List Scalar)
  deriving DecidableEq, Repr

/-- The number of operands (BC:460-466). -/
def operandCount (operands : List Operand) : Nat :=
  match operands.getLast? with
  | some (.many l) => operands.length + l.length - 1
  | _ => operands.length

/-- The output of an operand (BC:470-478). -/
def writeOperand : Operand → W
  | .one s => writeVbr 6 s
  | .many l => forEach (writeVbr 6) l

/-- `write-record` (BC:457-492). -/
def writeRecord (code : BitVec 64) (operands : List Operand) : W :=
  W.seq (W.seq (writeId 3) (W.seq (writeVbrWord 6 code) (writeVbrNat 6 (operandCount operands))))
    (forEach writeOperand operands)

/-- The output of an element of an array (BC:519-527). -/
def writeElement : Op → Scalar → W
  | .fixed w => writeFixedScalar w
  | .vbr w => writeVbr w
  | .char6 => writeChar6
  | _ => fun _ _ => none

/-- The loop of `write-abbrev-record` (BC:503-537). -/
def writeOps : List Op → List Operand → W
  | _, [] => some
  | .fixed w :: ops, .one v :: vs => W.seq (writeFixedScalar w v) (writeOps ops vs)
  | .vbr w :: ops, .one v :: vs => W.seq (writeVbr w v) (writeOps ops vs)
  | .char6 :: ops, .one v :: vs => W.seq (writeChar6 v) (writeOps ops vs)
  | .array :: aop :: ops, .many l :: vs =>
    W.seq (W.seq (writeVbrNat 6 l.length) (forEach (writeElement aop) l)) (writeOps ops vs)
  | .blob :: ops, .many l :: vs => W.seq (writeBlob l) (writeOps ops vs)
  | _, _ => fun _ => none

/-- `write-abbrev-record` (BC:494-538). -/
def writeShort (name : String) (values : List Operand) : W := fun s =>
  (getDef name s.defs).bind fun d => W.seq (writeId d.id) (writeOps d.ops values) s

/-- What a program writes: a record, the definition of an abbreviation, a record with it, a block. -/
inductive Item where
  | record (code : BitVec 64) (operands : List Operand)
  | define (name : String) (ops : List Op)
  | short (name : String) (values : List Operand)
  | block (id : BitVec 64) (width : Nat) (items : List Item)

/-- The begin of `with-block-output` (BC:286-320): the stream for the body, and the position to be patched. -/
def enter (id : BitVec 64) (width : Nat) (s : Stream) : Option (Stream × Nat) :=
  (W.seq (W.seq (writeId 1) (writeVbrWord 8 id))
    (W.seq (fun s => writeVbrNat 4 width { s with width := width, defs := [] }) align) s).bind fun s =>
      (writeFixed 32 0 s).map fun t => (t, s.pos)

/-- The end of `with-block-output` (BC:324-338); `o` is the stream outside. -/
def leave (o : Stream) (patch : Nat) (s : Stream) : Option Stream :=
  (W.seq (writeId 0) align s).bind fun s =>
    (writeFixed 32 (BitVec.ofNat 64 ((s.pos - patch - 4) / 4)) { s with pos := patch }).map fun t =>
      { t with pos := s.pos, width := o.width, defs := o.defs }

mutual
/-- One item. -/
def Item.run : Item → W
  | .record code operands => writeRecord code operands
  | .define name ops => writeDefinition name ops
  | .short name values => writeShort name values
  | .block id width items => fun s =>
    (enter id width s).bind fun p => (runAll items p.1).bind (leave s p.2)
/-- Items in their order. -/
def runAll : List Item → W
  | [] => some
  | i :: l => W.seq i.run (runAll l)
end

/-- `close` (BC:224-232). -/
def close (s : Stream) : Stream := if s.size = 0 then s else flush s

end Verif.Bitcode
