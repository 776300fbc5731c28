/-
Model of accumulators (`/repo/sources/dylan/accumulator.dylan`), which `map` and `map-as` use to collect elements when
the number of elements is not known.

A buffer has the slots 1 to 24; its slot 0 is the next buffer of the chain, here the next of a list.
-/
import Verif.Iter.MapInto

namespace Verif.Iter

variable {α β : Type}

/-- A buffer (`accumulator.dylan:15`, `$accumulator-size` is 25): the slots, `none` for `#f`. -/
abbrev Buf (α : Type) := Nat → Option α

/-- An accumulator (`accumulator.dylan:17-25`): the buffers (the first is `acc-buffer`, the next is in slot 0 of it and so
    on), `acc-index` and `acc-size`. -/
structure Acc (α : Type) where
  bufs : List (Buf α)
  index : Nat
  size : Option Nat

/-- `make`. -/
def Acc.new : Acc α := ⟨[fun _ => none], 24, none⟩

/-- `acc-buffer[i] := v`. -/
def Acc.store (acc : Acc α) (i : Nat) (v : α) : Acc α :=
  match acc.bufs with
  | [] => acc
  | b :: bs => { acc with bufs := (fun j => if j = i then some v else b j) :: bs }

/-- `extend-accumulator` (`accumulator.dylan:31-37`). -/
def Acc.extend (acc : Acc α) : Acc α := { acc with bufs := (fun _ => none) :: acc.bufs, index := 24 }

/-- `unless (accumulator.acc-index > 0) extend-accumulator(accumulator) end` (`accumulator.dylan:56`, `70`). -/
def Acc.room (acc : Acc α) : Acc α := if acc.index > 0 then acc else acc.extend

/-- `add!` (`accumulator.dylan:67-76`). -/
def Acc.add (acc : Acc α) (v : α) : Acc α :=
  let a := acc.room
  { a.store a.index v with index := a.index - 1 }

/-- `element-setter` for an accumulator with keys (`accumulator.dylan:53-62`). -/
def Acc.addKeyed (acc : Acc α) (key v : α) : Acc α :=
  let a := acc.room
  { (a.store a.index v).store (a.index - 1) key with index := a.index - 2 }

/-- The loop of `invert-accumulator` (`accumulator.dylan:157-163`): the buffers from `buff` on, and the size. -/
def invertLoop (buff : Buf α) (prev next : List (Buf α)) (size : Nat) : List (Buf α) × Nat :=
  match next with
  | [] => (buff :: prev, size)
  | b :: next => invertLoop b (buff :: prev) next (size + 25 - 1)

/-- `invert-accumulator` (`accumulator.dylan:149-168`). -/
def Acc.invert (acc : Acc α) : Acc α :=
  match acc.bufs with
  | [] => acc
  | b :: bs =>
    let r := invertLoop b [] bs (25 - acc.index - 1)
    ⟨r.1, 24, some r.2⟩

/-- The element of the slot. -/
def Acc.cur (acc : Acc α) (i : Nat) : Option α :=
  match acc.bufs with
  | [] => none
  | b :: _ => b i

/-- `next-state-seq-acc` and `next-state-key-acc` (`accumulator.dylan:83-105`): `step` is 1 or 2. -/
def Acc.next (step : Nat) (acc : Acc α) : Acc α :=
  if acc.index - step = 0 then
    match acc.bufs with
    | _ :: b :: bs => { acc with bufs := b :: bs, index := 24 }
    | _ => { acc with index := 24 }
  else { acc with index := acc.index - step }

/-- Iteration over `n` elements (`accumulator.dylan:107-137`). -/
def Acc.elements : Nat → Acc α → List (Option α)
  | 0, _ => []
  | n + 1, acc => acc.cur acc.index :: (acc.next 1).elements n

/-- Iteration over `n` keys and elements. -/
def Acc.keyed : Nat → Acc α → List (Option α × Option α)
  | 0, _ => []
  | n + 1, acc => (acc.cur (acc.index - 1), acc.cur acc.index) :: (acc.next 2).keyed n

/-- The size of an accumulator of a sequence (`accumulator.dylan:175-178`) and the iteration over it. -/
def Acc.all (acc : Acc α) : List (Option α) := acc.invert.elements (acc.invert.size.getD 0)

/-- The size of an accumulator with keys (`accumulator.dylan:170-173`) and the iteration over it. -/
def Acc.allKeyed (acc : Acc α) : List (Option α × Option α) := acc.invert.keyed (acc.invert.size.getD 0 / 2)

/-- The loop of the next method (`accumulator.dylan:284-293`); `none`: an error. -/
def storeKeys (sz : Nat) : Assoc Key α → List (Option α) → Option (List (Option α))
  | [], temp => some temp
  | (.int k, e) :: l, temp => if k ≥ 0 ∧ k < sz then storeKeys sz l (temp.set k.toNat (some e)) else none
  | (.other _, _) :: _, _ => none

/-- `convert-accumulator-as` a sequence, with keys (`accumulator.dylan:272-299`). -/
def convertKeyed (l : Assoc Key α) : Option (List (Option α)) := storeKeys l.length l (List.replicate l.length none)

end Verif.Iter
