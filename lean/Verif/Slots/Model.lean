/-
Model of the layout of slots: `compute-slot-descriptors` of the run-time system and its copy in the
compiler, the search for a slot's offset, the compiler's decision that an offset is fixed, slot
access, and the storage of class slots.

A class graph gives each class (a number) its precedence list, whether it is primary or abstract,
and its direct slots; `ofWorld` takes the lists from a world of `Verif.Class`.

Not modelled: slot types and representation sizes (every slot takes one word), slot setters,
redefinition of classes, the lock around initial values.
-/
import Verif.Class.Model

namespace Verif.Slots

/-- Slot allocation (`slot-descriptor.dylan:250-400`).  A repeated slot comes with a size slot,
    here given by its getter.  Allocation `#"constant"` cannot be asked for
    (`as-slot-descriptor-class` has no method for it). -/
inductive Alloc where
  | inst | eachSubclass | cls | virt
  | repeated (sizeGetter : Nat)
  deriving DecidableEq, Repr

/-- A slot as written in a class definition: the getter (generic functions are numbers, compared by
    `==`) and the allocation. -/
structure SlotDef where
  getter : Nat
  alloc : Alloc
  deriving DecidableEq, Repr

/-- A slot descriptor: made from a slot definition of the class `owner`, or the size slot
    descriptor that belongs to a repeated slot (`boot.dylan`: `size-slot-descriptor`). -/
inductive Sd where
  | slot (owner : Nat) (d : SlotDef)
  | size (owner : Nat) (getter : Nat)
  deriving DecidableEq, Repr

/-- `slot-getter`. -/
def Sd.getter : Sd → Nat
  | .slot _ d => d.getter
  | .size _ g => g

/-- `slot-owner`. -/
def Sd.owner : Sd → Nat
  | .slot o _ => o
  | .size o _ => o

/-- `slot-allocation`; a size slot is an instance slot. -/
def Sd.alloc : Sd → Alloc
  | .slot _ d => d.alloc
  | .size _ _ => .inst

/-- What the layout of slots needs to know of a class graph. -/
structure Graph where
  cpl : Nat → List Nat
  primary : Nat → Bool
  abstr : Nat → Bool
  slots : Nat → List SlotDef

/-- `direct-slot-descriptors` (`class-dynamic.dylan:192-202`). -/
def Graph.direct (G : Graph) (c : Nat) : List Sd := (G.slots c).map (Sd.slot c)

/-- The graph of a world of classes. -/
def ofWorld (w : Class.World) (abstr : Nat → Bool) (slots : Nat → List SlotDef) : Graph where
  cpl c := match Class.allSuperclasses w c with
    | .ok l => l
    | .error _ => []
  primary c := (w[c]?).elim false (fun r => r.fx.primary)
  abstr := abstr
  slots := slots

/-- How the computation of a layout can end badly.
    * `dup`: "has duplicated slot specs"; `inherited`: "respecifies the slot";
    * `repeats`: "Multiple repeated slots"; `conflict`: "has slot conflict";
    * `bug`: the errors "Bug - ran out of space" and "Bug - canonical slot ... in use already";
    * `ub`: a vector is accessed outside its bounds by the unchecked `vector-element`;
    * `hole`: `#f` where a slot descriptor is required;
    * `noClass`, `noSlot`: the class or the slot does not exist; `fuel`: no answer. -/
inductive Err where
  | dup | inherited | repeats | conflict | bug | ub | hole | noClass | noSlot | fuel
  deriving DecidableEq, Repr

/-! ### Checks on the definition -/

/-- `check-for-duplicated-slots` (`class-dynamic.dylan:758-791`). -/
def duplicated : List Sd → Bool
  | [] => false
  | s :: l => l.any (fun t => decide (s.getter = t.getter)) || duplicated l

/-- `check-for-illegally-inherited-slots` (`class-dynamic.dylan:795-812`). -/
def respecified (G : Graph) (c : Nat) : Bool :=
  (G.direct c).any (fun s => (G.cpl c).tail.any (fun a =>
    (G.direct a).any (fun t => decide (s.getter = t.getter))))

/-! ### Collection -/

/-- The variables of `collect-superclass-slots` (`class-dynamic.dylan:359-363`). -/
structure Coll where
  all : List Sd
  icount : Nat
  ccount : Nat
  repeater : Option Sd
  deriving DecidableEq, Repr

/-- One turn of the loop over the direct slots (`class-dynamic.dylan:371-392`). -/
def addSlot (st : Coll) (sd : Sd) : Except Err Coll :=
  if st.all.any (fun o => decide (sd.getter = o.getter)) then .ok st
  else match sd.alloc with
    | .inst => .ok { st with all := st.all ++ [sd], icount := st.icount + 1 }
    | .eachSubclass => .ok { st with all := st.all ++ [sd], ccount := st.ccount + 1 }
    | .cls => .ok { st with all := st.all ++ [sd], ccount := st.ccount + 1 }
    | .virt => .ok { st with all := st.all ++ [sd] }
    | .repeated _ =>
      if st.repeater.isSome then .error .repeats
      else .ok { st with all := st.all ++ [sd], icount := st.icount + 1, repeater := some sd }

/-- The loop over the direct slots of one class. -/
def addSlots : Coll → List Sd → Except Err Coll
  | st, [] => .ok st
  | st, sd :: sds =>
    match addSlot st sd with
    | .error e => .error e
    | .ok st' => addSlots st' sds

/-- `collect-superclass-slots` (`class-dynamic.dylan:364-397`): superclasses first. -/
def collect (G : Graph) : List Nat → Except Err Coll
  | [] => .ok ⟨[], 0, 0, none⟩
  | c :: cs =>
    match collect G cs with
    | .error e => .error e
    | .ok st => addSlots st (G.direct c)

/-! ### Allocation -/

/-- A vector of slot descriptors; `none` is `#f`. -/
abbrev Vec := List (Option Sd)

/-- `merge-vectors` (`class-dynamic.dylan:418-435`), from index `i` on. -/
def mergeVec : Nat → Vec → Vec → Except Err Vec
  | _, [], into => .ok into
  | i, none :: src, into => mergeVec (i + 1) src into
  | i, some s :: src, into =>
    match into[i]? with
    | none => .error .ub
    | some (some t) => if s.getter = t.getter then mergeVec (i + 1) src into else .error .conflict
    | some none => mergeVec (i + 1) src (into.set i (some s))

/-- `position-slot` (`class-dynamic.dylan:447-463`). -/
def position (sd : Sd) : Vec → Except Err Vec
  | [] => .error .bug
  | none :: v => .ok (some sd :: v)
  | some s :: v =>
    match position sd v with
    | .error e => .error e
    | .ok v' => .ok (some s :: v')

/-- The size slot descriptor of a repeated slot. -/
def Sd.sizeSlot : Sd → Option Sd
  | .slot o d => match d.alloc with
    | .repeated g => some (.size o g)
    | _ => none
  | .size _ _ => none

/-- The allocation of the size slot (`class-dynamic.dylan:471-477`): `repeater-size` goes to the last
    place. -/
def placeSize (repeater : Option Sd) (icount : Nat) (iv : Vec) : Except Err Vec :=
  if icount = 0 then .error .ub
  else match iv[icount - 1]? with
    | none => .error .ub
    | some (some _) => .error .bug
    | some none => .ok (iv.set (icount - 1) (repeater.bind Sd.sizeSlot))

/-- One turn of the loop over the direct slots (`class-dynamic.dylan:464-479`). -/
def allocSlot (repeater : Option Sd) (icount : Nat) (v : Vec × Vec) (sd : Sd) :
    Except Err (Vec × Vec) :=
  match sd.alloc with
  | .inst => (position sd v.1).map (fun iv => (iv, v.2))
  | .eachSubclass => (position sd v.2).map (fun cv => (v.1, cv))
  | .cls => (position sd v.2).map (fun cv => (v.1, cv))
  | .virt => .ok v
  | .repeated _ => (placeSize repeater icount v.1).map (fun iv => (iv, v.2))

/-- The loop over the direct slots of one class. -/
def allocSlots (repeater : Option Sd) (icount : Nat) : Vec × Vec → List Sd → Except Err (Vec × Vec)
  | v, [] => .ok v
  | v, sd :: sds =>
    match allocSlot repeater icount v sd with
    | .error e => .error e
    | .ok v' => allocSlots repeater icount v' sds

/-- `allocate-superclass-slots` (`class-dynamic.dylan:439-483`): superclasses first, those of the
    first primary class left out. -/
def allocate (G : Graph) (fp : Option Nat) (repeater : Option Sd) (icount : Nat) :
    Vec × Vec → List Nat → Except Err (Vec × Vec)
  | v, [] => .ok v
  | v, c :: cs =>
    match allocate G fp repeater icount v cs with
    | .error e => .error e
    | .ok v' =>
      if fp.any (fun p => decide (c ∈ G.cpl p)) then .ok v'
      else allocSlots repeater icount v' (G.direct c)

/-- `slot-descriptors`, `instance-slot-descriptors`, `class-slot-descriptors`,
    `repeated-slot-descriptor`, `instance-storage-size`. -/
structure Layout where
  all : List Sd
  ivec : Vec
  cvec : Vec
  repeater : Option Sd
  size : Nat
  deriving DecidableEq, Repr

/-- `first-primary` (`class-dynamic.dylan:402-415`). -/
def firstPrimary (G : Graph) (c : Nat) : Option Nat := (G.cpl c).tail.find? G.primary

/-- The merging of the vectors of the first primary class (`class-dynamic.dylan:416-438`). -/
def mergePrimary (fp : Option Nat) (ls : List Layout) (iv cv : Vec) : Except Err (Vec × Vec) :=
  match fp with
  | none => .ok (iv, cv)
  | some p =>
    match ls[p]? with
    | none => .error .noClass
    | some l =>
      match mergeVec 0 l.ivec iv with
      | .error e => .error e
      | .ok iv' =>
        match mergeVec 0 l.cvec cv with
        | .error e => .error e
        | .ok cv' => .ok (iv', cv')

/-- `compute-slot-descriptors` (`class-dynamic.dylan:355-497`; the compiler's copy is
    `define-class-mop.dylan:1221-1354`) for class `c`, given the layouts of the earlier classes. -/
def computeSlots (G : Graph) (ls : List Layout) (c : Nat) : Except Err Layout :=
  match collect G (G.cpl c) with
  | .error e => .error e
  | .ok st =>
    match mergePrimary (firstPrimary G c) ls (List.replicate st.icount none)
        (List.replicate st.ccount none) with
    | .error e => .error e
    | .ok v =>
      match allocate G (firstPrimary G c) st.repeater st.icount v (G.cpl c) with
      | .error e => .error e
      | .ok v' => .ok ⟨st.all, v'.1, v'.2, st.repeater, st.icount⟩

/-- The checks and the layout (`do-implementation-class-cross-class-initializations`,
    `class-dynamic.dylan:232-238`). -/
def layoutClass (G : Graph) (ls : List Layout) (c : Nat) : Except Err Layout :=
  if duplicated (G.direct c) then .error .dup
  else if respecified G c then .error .inherited
  else computeSlots G ls c

/-- The layouts of the classes below `n`, in order of creation. -/
def layoutAll (G : Graph) : Nat → Except Err (List Layout)
  | 0 => .ok []
  | n + 1 =>
    match layoutAll G n with
    | .error e => .error e
    | .ok ls =>
      match layoutClass G ls n with
      | .error e => .error e
      | .ok l => .ok (ls ++ [l])

/-! ### Offsets -/

/-- The loops of `slot-offset-i` (`slot-descriptor.dylan:480-492`, `497-508`). -/
def findOffset (g : Nat) : Vec → Nat → Except Err (Option Nat)
  | [], _ => .ok none
  | none :: _, _ => .error .hole
  | some e :: v, i => if e.getter = g then .ok (some i) else findOffset g v (i + 1)

/-- `slot-offset-i` (`slot-descriptor.dylan:471-516`; `^slot-offset` of the compiler,
    `define-class-slot-mop.dylan:59-77`, `212-217`). -/
def slotOffset (sd : Sd) (l : Layout) : Except Err (Option Nat) :=
  match sd.alloc with
  | .repeated _ => .ok (some l.ivec.length)
  | .inst => findOffset sd.getter l.ivec 0
  | .cls => findOffset sd.getter l.cvec 0
  | .eachSubclass => findOffset sd.getter l.cvec 0
  | .virt => .error .noSlot

/-! ### Fixed offsets -/

/-- What the compiler knows of the subclasses of a class: whether all direct subclasses are known
    (the class is sealed), and the known direct subclasses (`classes.dylan:33-62`). -/
structure Subs where
  known : Nat → Bool
  direct : Nat → List Nat

/-- `every?(add-if, ...)`, the list built so far being passed along. -/
def everyWith (f : Nat → List Nat → Option (List Nat)) : List Nat → List Nat → Option (List Nat)
  | [], acc => some acc
  | c :: cs, acc =>
    match f c acc with
    | none => none
    | some acc' => everyWith f cs acc'

/-- `add-if` of `^all-subclasses-if-sealed` (`classes.dylan:72-80`), with a bound on the depth; the
    state is the list built so far, `none` stands for `#f`. -/
def addIf (S : Subs) : Nat → Nat → List Nat → Option (List Nat)
  | 0, _, _ => none
  | n + 1, c, acc =>
    if S.known c then
      if c ∈ acc then some acc
      else if c ∈ S.direct c then none
      else match everyWith (addIf S n) (S.direct c) acc with
        | none => none
        | some acc' => some (c :: acc')
    else none

/-- `^all-subclasses-if-sealed` (`classes.dylan:68-82`). -/
def allSubsIfSealed (S : Subs) (n c : Nat) : Option (List Nat) := addIf S n c []

/-- `every?` over two vectors (`define-class-slot-mop.dylan:304-309`): the shorter one decides where
    to stop. -/
def sameOffsets (mine : List (Option Sd)) : Vec → Vec → Bool
  | f :: fs, t :: ts =>
    (decide (f = t) || !(decide (f ∈ mine) || decide (t ∈ mine))) && sameOffsets mine fs ts
  | _, _ => true

/-- The loop over the subclasses (`define-class-slot-mop.dylan:283-320`); the state is
    `first-concrete-instance-slots`. -/
def subsAgree (G : Graph) (ls : List Layout) (mine : Vec) : Option Vec → List Nat → Bool
  | _, [] => true
  | first, s :: ss =>
    match ls[s]? with
    | none => false
    | some l =>
      if G.abstr s then subsAgree G ls mine first ss
      else match first with
        | none => subsAgree G ls mine (some l.ivec) ss
        | some f => sameOffsets mine f l.ivec && subsAgree G ls mine first ss

/-- `^instance-slots-have-fixed-offsets?` (`define-class-slot-mop.dylan:270-324`); for a primary
    class the answer is recorded when it is made (`define-class.dylan:165-168`). -/
def haveFixedOffsets (G : Graph) (S : Subs) (ls : List Layout) (c : Nat) : Bool :=
  if G.primary c then true
  else match ls[c]? with
    | none => false
    | some l =>
      match allSubsIfSealed S ls.length c with
      | none => false
      | some subs => subsAgree G ls l.ivec none subs

/-- `slot-offset-fixed-in-class?` (`define-class-slot-mop.dylan:326-343`). -/
def offsetFixedIn (G : Graph) (S : Subs) (ls : List Layout) (sd : Sd) (c : Nat) : Bool :=
  haveFixedOffsets G S ls sd.owner ||
    (decide (c ≠ sd.owner) && decide (sd.owner ∈ G.cpl c) &&
      (haveFixedOffsets G S ls c ||
        ((G.cpl c).find? (haveFixedOffsets G S ls)).any (fun f => decide (sd.owner ∈ G.cpl f))))

/-- The first concrete class of a list. -/
def firstConcrete (G : Graph) (subs : List Nat) : Option Nat := subs.find? (fun s => !G.abstr s)

/-- `^slot-fixed-offset` (`define-class-slot-mop.dylan:348-374`): the class whose layout is asked. -/
def fixedOffsetClass (G : Graph) (S : Subs) (n c : Nat) : Nat :=
  if G.abstr c then
    match allSubsIfSealed S n c with
    | none => c
    | some subs => (firstConcrete G subs).getD c
  else c

/-- `slot-fixed-offset-in` a class (`dispatch.dylan:595-602`): the offset used in compiled code for
    an access to the slot in an object known to be an instance of `c`. -/
def fixedOffsetIn (G : Graph) (S : Subs) (ls : List Layout) (sd : Sd) (c : Nat) : Option Nat :=
  if offsetFixedIn G S ls sd c then
    match ls[fixedOffsetClass G S ls.length c]? with
    | none => none
    | some l =>
      match slotOffset sd l with
      | .ok o => o
      | .error _ => none
  else none

/-- `slot-fixed-offset-in` a union of classes (`dispatch.dylan:611-634`): one offset for all. -/
def fixedOffsetUnion (G : Graph) (S : Subs) (ls : List Layout) (sd : Sd) : Option Nat → List Nat → Option Nat
  | off, [] => off
  | off, c :: cs =>
    match fixedOffsetIn G S ls sd c, off with
    | none, _ => none
    | some o, some o' => if o' = o then fixedOffsetUnion G S ls sd (some o') cs else none
    | some o, none => fixedOffsetUnion G S ls sd (some o) cs

/-! ### Access -/

/-- An object: its class and the contents of its slots (`none` is the unbound marker). -/
structure Obj where
  cls : Nat
  vals : List (Option Nat)
  deriving DecidableEq, Repr

/-- A new object of class `c`, all slots unbound (`system-allocate-simple-instance-i`). -/
def newObj (c : Nat) (l : Layout) : Obj := ⟨c, List.replicate l.size none⟩

/-- `slot-value` (`slot-descriptor.dylan:121-138`): `none` means that the slot is unbound. -/
def slotValue (ls : List Layout) (o : Obj) (sd : Sd) : Except Err (Option Nat) :=
  match ls[o.cls]? with
  | none => .error .noClass
  | some l =>
    match slotOffset sd l with
    | .error e => .error e
    | .ok none => .error .noSlot
    | .ok (some i) =>
      match o.vals[i]? with
      | none => .error .ub
      | some v => .ok v

/-- `slot-value-setter` (`slot-descriptor.dylan:140-158`), without the type check. -/
def slotValueSetter (ls : List Layout) (v : Nat) (o : Obj) (sd : Sd) : Except Err Obj :=
  match ls[o.cls]? with
  | none => .error .noClass
  | some l =>
    match slotOffset sd l with
    | .error e => .error e
    | .ok none => .error .noSlot
    | .ok (some i) =>
      if i < o.vals.length then .ok { o with vals := o.vals.set i (some v) } else .error .ub

/-- Several assignments to slots of one object, in order. -/
def setAll (ls : List Layout) : Obj → List (Sd × Nat) → Except Err Obj
  | o, [] => .ok o
  | o, p :: ps =>
    match slotValueSetter ls p.2 o p.1 with
    | .error e => .error e
    | .ok o' => setAll ls o' ps

/-- A compiled access at a fixed offset (`primitive-slot-value`). -/
def compiledValue (i : Nat) (o : Obj) : Except Err (Option Nat) :=
  match o.vals[i]? with
  | none => .error .ub
  | some v => .ok v

/-! ### Class slots -/

/-- The storage of class slots: `class-slot-storage` of class `k` at an offset holds a cell (a pair,
    here a number); `vals` are the heads of the cells. -/
structure Store where
  cell : Nat → Nat → Option Nat
  vals : List (Option Nat)

/-- `vector-element(storage, offset) := cell`. -/
def Store.put (s : Store) (k off a : Nat) : Store :=
  { s with cell := fun k' off' => if k' = k ∧ off' = off then some a else s.cell k' off' }

/-- `find-or-create-class-slot-storage` (`slot-descriptor.dylan:315-346`).  `init sd k` is
    `init-falue(effective-initial-value-descriptor(sd, k))`.  The first argument bounds the
    recursion from a class to the owner of the slot. -/
def findOrCreate (ls : List Layout) (init : Sd → Nat → Option Nat) :
    Nat → Nat → Nat → Bool → Store → Except Err (Nat × Store)
  | 0, _, _, _, _ => .error .fuel
  | n + 1, k, off, now, s =>
    match s.cell k off with
    | some a => .ok (a, s)
    | none =>
      match ls[k]? with
      | none => .error .noClass
      | some l =>
        match l.cvec[off]? with
        | none => .error .ub
        | some none => .error .hole
        | some (some sd) =>
          if sd.owner = k ∨ sd.alloc = .eachSubclass then
            let s' := { s with vals := s.vals ++ [if now then init sd k else none] }
            .ok (s.vals.length, s'.put k off s.vals.length)
          else
            match ls[sd.owner]? with
            | none => .error .noClass
            | some lo =>
              match slotOffset sd lo with
              | .error e => .error e
              | .ok none => .error .noSlot
              | .ok (some off') =>
                match findOrCreate ls init n sd.owner off' now s with
                | .error e => .error e
                | .ok (a, s') => .ok (a, s'.put k off a)

/-- The offset of a class slot in class `k`. -/
def classOffset (ls : List Layout) (sd : Sd) (k : Nat) : Except Err Nat :=
  match ls[k]? with
  | none => .error .noClass
  | some l =>
    match slotOffset sd l with
    | .error e => .error e
    | .ok none => .error .noSlot
    | .ok (some off) => .ok off

/-- `slot-value` of a class slot, for an object of class `k` (`slot-descriptor.dylan:196-217`). -/
def classSlotValue (ls : List Layout) (init : Sd → Nat → Option Nat) (s : Store) (sd : Sd) (k : Nat) :
    Except Err (Option Nat × Store) :=
  match classOffset ls sd k with
  | .error e => .error e
  | .ok off =>
    match findOrCreate ls init 2 k off true s with
    | .error e => .error e
    | .ok (a, s') =>
      match s'.vals[a]? with
      | none => .error .ub
      | some v => .ok (v, s')

/-- `slot-value-setter` of a class slot, for an object of class `k`
    (`slot-descriptor.dylan:220-240`). -/
def classSlotSetter (ls : List Layout) (init : Sd → Nat → Option Nat) (v : Nat) (s : Store) (sd : Sd)
    (k : Nat) : Except Err Store :=
  match classOffset ls sd k with
  | .error e => .error e
  | .ok off =>
    match findOrCreate ls init 2 k off false s with
    | .error e => .error e
    | .ok (a, s') => .ok { s' with vals := s'.vals.set a (some v) }

/-- The loop of `allocate-instance-i` over the class slots (`class.dylan:422-424`), offsets below
    `n`. -/
def touchAll (ls : List Layout) (init : Sd → Nat → Option Nat) (k : Nat) : Nat → Store → Except Err Store
  | 0, s => .ok s
  | n + 1, s =>
    match touchAll ls init k n s with
    | .error e => .error e
    | .ok s' =>
      match findOrCreate ls init 2 k n true s' with
      | .error e => .error e
      | .ok (_, s'') => .ok s''

/-- What a program does with class slots: read or write one through an object of class `k`, or make
    an instance of `k`. -/
inductive COp where
  | get (k : Nat) (sd : Sd)
  | set (k : Nat) (sd : Sd) (v : Nat)
  | new (k : Nat)
  deriving DecidableEq, Repr

/-- One operation; the value is that of a `get`. -/
def cstep (ls : List Layout) (init : Sd → Nat → Option Nat) (s : Store) :
    COp → Except Err (Option (Option Nat) × Store)
  | .get k sd => (classSlotValue ls init s sd k).map (fun r => (some r.1, r.2))
  | .set k sd v => (classSlotSetter ls init v s sd k).map (fun s' => (none, s'))
  | .new k =>
    match ls[k]? with
    | none => .error .noClass
    | some l => (touchAll ls init k l.cvec.length s).map (fun s' => (none, s'))

/-- A sequence of operations: the values of the `get`s, and the final storage. -/
def crun (ls : List Layout) (init : Sd → Nat → Option Nat) :
    Store → List COp → Except Err (List (Option Nat) × Store)
  | s, [] => .ok ([], s)
  | s, op :: ops =>
    match cstep ls init s op with
    | .error e => .error e
    | .ok (r, s') =>
      match crun ls init s' ops with
      | .error e => .error e
      | .ok (rs, s'') => .ok (r.toList ++ rs, s'')

/-- No cell has been made. -/
def Store.empty : Store := ⟨fun _ _ => none, []⟩

end Verif.Slots
