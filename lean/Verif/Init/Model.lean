/-
Model of the initialisation of slots when an instance is made: defaulted initialisation arguments,
the constructor of the run-time system, the constructor the compiler writes for a class, and the
compiler's decision that a slot is always initialised.

Values, keywords, getters, classes and functions are numbers.

Not modelled: repeated slots, class slots, raw slot types, side effects of init functions, the
methods on `initialize`.
-/
import Verif.Class.Model

namespace Verif.Init

/-- An init expression: `init-value` (evaluated once) or a function called each time
    (`slot-descriptor.dylan`: `init-value?`, `init-data`). -/
inductive Src where
  | value (v : Nat)
  | call (f : Nat)
  deriving DecidableEq, Repr

/-- `<init-arg-descriptor>`: a `keyword` clause of a class definition. -/
structure ArgSpec where
  keyword : Nat
  required : Bool
  init : Option Src
  deriving DecidableEq, Repr

/-- `<inherited-slot-descriptor>`: an `inherited slot` clause of a class definition. -/
structure InhSpec where
  getter : Nat
  init : Option Src
  deriving DecidableEq, Repr

/-- `<slot-descriptor>`, for an instance slot. -/
structure SlotD where
  getter : Nat
  owner : Nat
  keyword : Option Nat
  required : Bool
  init : Option Src
  type : Nat
  deriving DecidableEq, Repr

/-- The classes, and what they are made of: precedence lists, `keyword` and `inherited slot` clauses,
    instance slots; the results of functions; the instances of slot types. -/
structure Sys where
  cpl : Nat → List Nat
  args : Nat → List ArgSpec
  inh : Nat → List InhSpec
  slots : Nat → List SlotD
  call : Nat → Nat
  inst : Nat → Nat → Bool

/-- * `missing`: a required init keyword is not supplied;
    * `type`: a value is not of the type of the slot;
    * `bounds`: a vector is accessed outside its bounds. -/
inductive Err where
  | missing | type | bounds
  deriving DecidableEq, Repr

/-- `init-falue` where an initial value is supplied (`class.dylan:340-352`). -/
def Sys.eval (H : Sys) : Src → Nat
  | .value v => v
  | .call f => H.call f

/-! ### Effective descriptors -/

/-- The loop of `effective-initialization-argument-descriptor` (`class.dylan:196-206`; the
    compiler's copy is `define-class-slot-mop.dylan:90-98`); `none` means the slot itself. -/
def effArgLoop (H : Sys) (owner k : Nat) : List Nat → Option ArgSpec
  | [] => none
  | c :: cs =>
    if c = owner then none
    else match (H.args c).find? (fun d => decide (d.keyword = k) && (d.required || d.init.isSome)) with
      | some d => some d
      | none => effArgLoop H owner k cs

/-- `effective-initialization-argument-descriptor` (`class.dylan:187-213`). -/
def effArg (H : Sys) (s : SlotD) (c : Nat) : Option ArgSpec :=
  if s.owner = c then none
  else match s.keyword with
    | none => none
    | some k => effArgLoop H s.owner k (H.cpl c)

/-- `init-keyword-required?` of that descriptor. -/
def effRequired (H : Sys) (s : SlotD) (c : Nat) : Bool :=
  match effArg H s c with
  | some d => d.required
  | none => s.required

/-- The loop of `effective-initial-value-descriptor` (`class.dylan:223-233`;
    `define-class-slot-mop.dylan:119-127`). -/
def effInitLoop (H : Sys) (owner g : Nat) : List Nat → Option InhSpec
  | [] => none
  | c :: cs =>
    if c = owner then none
    else match (H.inh c).find? (fun d => decide (d.getter = g) && d.init.isSome) with
      | some d => some d
      | none => effInitLoop H owner g cs

/-- The init expression of `effective-initial-value-descriptor` (`class.dylan:215-237`). -/
def effInit (H : Sys) (s : SlotD) (c : Nat) : Option Src :=
  if s.owner = c then s.init
  else match effInitLoop H s.owner s.getter (H.cpl c) with
    | some d => d.init
    | none => s.init

/-! ### Defaulted initialisation arguments -/

/-- The variables of `compute-defaulted-initialization-arguments`: the keywords, latest first, with
    their expressions, and the required keywords. -/
structure DState where
  defs : List (Nat × Src)
  required : List Nat
  deriving DecidableEq, Repr

/-- One turn of its loop (`class-dynamic.dylan:534-548`; `define-class-mop.dylan:1173-1200`). -/
def dstep (st : DState) (d : ArgSpec) : DState :=
  if d.keyword ∈ st.required then st
  else if d.required then { st with required := d.keyword :: st.required }
  else match d.init with
    | none => st
    | some e =>
      if d.keyword ∈ st.defs.map Prod.fst then st
      else { st with defs := (d.keyword, e) :: st.defs }

/-- Its two loops. -/
def dloop (H : Sys) (c : Nat) : DState := ((H.cpl c).flatMap H.args).foldl dstep ⟨[], []⟩

/-- An expression that need not be evaluated for each instance. -/
def Src.isValue : Src → Bool
  | .value _ => true
  | .call _ => false

/-- What is recorded in the class (`defaulted-initialization-arguments-slot`): the vector, or its
    size, negative if the vector may be kept once computed. -/
inductive Rec where
  | vec (l : List (Nat × Nat))
  | size (n : Int)
  deriving DecidableEq, Repr

/-- `compute-defaulted-initialization-arguments` (`class-dynamic.dylan:518-563`). -/
def recordRun (H : Sys) (c : Nat) : Rec :=
  let defs := (dloop H c).defs
  if defs.all (fun p => p.2.isValue) then .vec (defs.map (fun p => (p.1, H.eval p.2)))
  else .size (defs.length * 2)

/-- `^compute-defaulted-initialization-arguments` (`define-class-mop.dylan:1165-1219`); `known` says
    which expressions the compiler has evaluated to something it can put into the vector. -/
def recordCompiler (H : Sys) (known : Src → Bool) (c : Nat) : Rec :=
  let defs := (dloop H c).defs
  if defs.all (fun p => p.2.isValue) then
    if defs.all (fun p => known p.2) then .vec (defs.map (fun p => (p.1, H.eval p.2)))
    else .size (-(defs.length * 2 : Nat))
  else .size (defs.length * 2)

/-- The variables of `defaulted-initialization-arguments`: the part of the vector that is filled, and
    the required keywords. -/
structure FState where
  filled : List (Nat × Nat)
  required : List Nat
  deriving DecidableEq, Repr

/-- One turn of its loop (`class.dylan:543-560`); `n` is the size of the vector. -/
def fstep (H : Sys) (n : Nat) (st : FState) (d : ArgSpec) : Except Err FState :=
  if d.keyword ∈ st.required then .ok st
  else if d.required then .ok { st with required := d.keyword :: st.required }
  else match d.init with
    | none => .ok st
    | some e =>
      if d.keyword ∈ st.filled.map Prod.fst then .ok st
      else if 2 * st.filled.length + 1 < n then
        .ok { st with filled := st.filled ++ [(d.keyword, H.eval e)] }
      else .error .bounds

/-- Its loop. -/
def floop (H : Sys) (n : Nat) : FState → List ArgSpec → Except Err FState
  | st, [] => .ok st
  | st, d :: ds =>
    match fstep H n st d with
    | .error e => .error e
    | .ok st' => floop H n st' ds

/-- `defaulted-initialization-arguments` (`class.dylan:530-567`), given what is recorded; an entry
    of the vector left unfilled would not be a keyword. -/
def defaulted (H : Sys) (r : Rec) (c : Nat) : Except Err (List (Nat × Nat)) :=
  match r with
  | .vec l => .ok l
  | .size n =>
    match floop H n.natAbs ⟨[], []⟩ ((H.cpl c).flatMap H.args) with
    | .error e => .error e
    | .ok st => if 2 * st.filled.length = n.natAbs then .ok st.filled else .error .bounds

/-! ### The constructor of the run-time system -/

/-- `keyword-value` (`class.dylan:255-292`); `none` is `$not-found`. -/
def keywordValue (H : Sys) (s : SlotD) (c : Nat) (initArgs : List (Nat × Nat)) :
    Except Err (Option Nat) :=
  match s.keyword with
  | none => .ok none
  | some k =>
    match initArgs.lookup k with
    | none => if effRequired H s c then .error .missing else .ok none
    | some v => if H.inst s.type v then .ok (some v) else .error .type

/-- `instance-new-value` (`class.dylan:382-391`); `none` is the unbound marker. -/
def newValue (H : Sys) (s : SlotD) (c : Nat) (initArgs : List (Nat × Nat)) : Except Err (Option Nat) :=
  match keywordValue H s c initArgs with
  | .error e => .error e
  | .ok (some v) => .ok (some v)
  | .ok none => .ok ((effInit H s c).map H.eval)

/-- The loop of `default-initialize` over the instance slots (`class.dylan:497-504`). -/
def initSlots (H : Sys) (c : Nat) (initArgs : List (Nat × Nat)) : List SlotD → Except Err (List (Option Nat))
  | [] => .ok []
  | s :: ss =>
    match newValue H s c initArgs with
    | .error e => .error e
    | .ok v =>
      match initSlots H c initArgs ss with
      | .error e => .error e
      | .ok vs => .ok (v :: vs)

/-- `default-class-constructor` (`class.dylan:470-486`): the slots of the new instance. -/
def makeRun (H : Sys) (r : Rec) (c : Nat) (user : List (Nat × Nat)) : Except Err (List (Option Nat)) :=
  match defaulted H r c with
  | .error e => .error e
  | .ok d => initSlots H c (user ++ d) (H.slots c)

/-! ### The constructor the compiler writes -/

/-- The value of the variable for a slot with a keyword (`compute-slot-initialization-code`,
    `define-class.dylan:581-602`): `#key ?keyword ?name = ...`. -/
def keyVar (H : Sys) (s : SlotD) (c k : Nat) (initArgs : List (Nat × Nat)) : Except Err (Option Nat) :=
  match initArgs.lookup k with
  | some v => .ok (some v)
  | none =>
    match effInit H s c with
    | some e => .ok (some (H.eval e))
    | none => if s.required then .error .missing else .ok none

/-- The binding of the keyword arguments: the variables, in the order of the slots. -/
def keyVars (H : Sys) (c : Nat) (initArgs : List (Nat × Nat)) : List SlotD → Except Err (List (Option Nat))
  | [] => .ok []
  | s :: ss =>
    match s.keyword with
    | none =>
      match keyVars H c initArgs ss with
      | .error e => .error e
      | .ok vs => .ok (none :: vs)
    | some k =>
      match keyVar H s c k initArgs with
      | .error e => .error e
      | .ok v =>
        match keyVars H c initArgs ss with
        | .error e => .error e
        | .ok vs => .ok (v :: vs)

/-- The check of the type of the variable (`define-class.dylan:606-645`): the unbound marker is let
    through unless the slot is required or has an initial value. -/
def checkVar (H : Sys) (s : SlotD) (c : Nat) (v : Option Nat) : Bool :=
  match v with
  | some v => H.inst s.type v
  | none => !(s.required || (effInit H s c).isSome)

/-- The assignments to the slots (`define-class.dylan:603-668`). -/
def setSlots (H : Sys) (c : Nat) : List SlotD → List (Option Nat) → Except Err (List (Option Nat))
  | s :: ss, v :: vs =>
    match s.keyword with
    | none =>
      match setSlots H c ss vs with
      | .error e => .error e
      | .ok r => .ok ((effInit H s c).map H.eval :: r)
    | some _ =>
      if checkVar H s c v then
        match setSlots H c ss vs with
        | .error e => .error e
        | .ok r => .ok (v :: r)
      else .error .type
  | _, _ => .ok []

/-- The compiled constructor (`compute-method-body`, `define-class.dylan:483-574`): where the
    recorded vector is empty the arguments are taken as they are. -/
def makeCompiled (H : Sys) (r : Rec) (c : Nat) (user : List (Nat × Nat)) : Except Err (List (Option Nat)) :=
  let go (initArgs : List (Nat × Nat)) : Except Err (List (Option Nat)) :=
    match keyVars H c initArgs (H.slots c) with
    | .error e => .error e
    | .ok vs => setSlots H c (H.slots c) vs
  if r = .vec [] then go user
  else match defaulted H r c with
    | .error e => .error e
    | .ok d => go (user ++ d)

/-! ### The decision that a slot is always initialised -/

/-- `slot-guaranteed-initialized-in-class?` (`define-class-slot-mop.dylan:376-386`): the test that a
    slot is bound is left out in compiled code. -/
def guaranteed (H : Sys) (s : SlotD) (c : Nat) : Bool :=
  (effInit H s c).isSome ||
    match effArg H s c with
    | some d => d.required || d.init.isSome
    | none => s.required || s.init.isSome

end Verif.Init
