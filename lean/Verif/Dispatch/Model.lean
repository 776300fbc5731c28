/-
Model of method ordering and of the dispatch cache of a generic function
  /repo/sources/dylan/discrimination.dylan, dispatch.dylan, new-dispatch.dylan,
  slot-dispatch.dylan

A generic function keeps a tree of discriminators.  A call walks down the tree; if it ends at an
absent node, the tree is extended for the arguments of that call and the call starts again.

Simplifications, common to the whole file:
* the type relations are those of `Verif.Types`; where `subtype?` has no applicable method, or
  a collection is asked about its element type and there is none, the code signals an error; here
  the answer is then "no" (the theorems assume the question does not come up);
* a class-keyed discriminator is an association list: that it is one, whatever its representation,
  is the subject of `Verif.Dispatch.Table`;
* the keys of singleton discriminators are compared by identity (value objects with their own `=`
  are not modelled), and the list of keys is searched from the front;
* keyword arguments, call-site caches, profiling, the types known for arguments at a call site
  (`%ds-argtypes` is empty on the standard path), conditions signalled as warnings, and the second
  attempt to order ambiguous methods (`sort-applicable-methods-desperately`) are left out;
* a terminal engine node is the list of applicable methods in order, with the location of the slot
  for slot accessors, and the ambiguous ones; the code cuts this list after the first method that
  has no `next-method`.
-/
import Verif.Types.Model

namespace Verif.Dispatch
open Verif.Types

section Types
variable {C : Type} [DecidableEq C] (K : World C)

/-- `instance?` as in `Verif.Types.inst`, by structural recursion. -/
def instS (x : Obj C) : Ty C → Option Bool
  | .union a b => orO (instS x a) (instS x b)
  | .cls c => some (K.sub (classOf K x) c)
  | .single o => some (decide (x = o))
  | .limInt b => match x with
    | .int i => some (limIntTest i b)
    | _ => some false
  | .subclass c => match x with
    | .cls d => some (K.sub d c)
    | _ => some false
  | .limFun s => match x with
    | .fn xc xs _ => some (K.sub xc K.funC && K.congr s xs)
    | _ => some false
  | .limColl c e size dims => inst K x (.limColl c e size dims)

/-- `subtype?(a, b)` for `a` not a union, as in `Verif.Types.sub`, by recursion on `b`. -/
def subR (a : Ty C) : Ty C → Option Bool
  | .union b1 b2 =>
    match a with
    | .single o => orO (instS K o b1) (instS K o b2)
    | _ => orO (subR a b1) (subR a b2)
  | .single p =>
    match a with
    | .single o => some (decide (o = p))
    | _ => some false
  | .cls d =>
    match a with
    | .single o => some (K.sub (classOf K o) d)
    | .cls c => some (K.sub c d)
    | .limInt _ => some (K.sub K.intC d)
    | .subclass _ => some (K.sub K.classC d)
    | .limFun _ => some (K.sub K.funC d)
    | .limColl c _ _ _ => some (K.sub c d)
    | .union _ _ => some false
  | .limInt b =>
    match a with
    | .single o => instS K o (.limInt b)
    | .limInt a => some (limIntSub a b)
    | .subclass _ => none
    | .limFun _ => none
    | _ => some false
  | .subclass d =>
    match a with
    | .single (.cls c) => some (K.sub c d)
    | .cls c => some (decide (c = K.classC) && decide (d = K.classC))
    | .subclass c => some (K.sub c d)
    | .limInt _ => none
    | .limFun _ => none
    | _ => some false
  | .limFun s =>
    match a with
    | .single o => instS K o (.limFun s)
    | .limInt _ => none
    | .subclass _ => none
    | _ => some false
  | .limColl c e size dims => sub K a (.limColl c e size dims)

/-- `subtype?`, as in `Verif.Types.sub`, by structural recursion. -/
def subS : Ty C → Ty C → Option Bool
  | .union a1 a2, b => andO (subS a1 b) (subS a2 b)
  | a, b => subR K a b

/-- `primitive-instance?`, `grounded-instance?` (`dispatch.dylan:111-113`). -/
def isInst (x : Obj C) (t : Ty C) : Bool := instS K x t == some true

/-- `grounded-subtype?` (`dispatch.dylan:116-135`): the cases for classes and singletons are
    those of `subtype?`. -/
def isSub (a b : Ty C) : Bool := subS K a b == some true

end Types

/-- A class heterarchy with class precedence lists and slot locations.
    * `objC`: `<object>`;
    * `cpl c`: `all-superclasses(c)`, most specific first;
    * `offset m c`: where the slot accessed by method number `m` is in instances of `c`
      (`slot-offset-i`). -/
structure DWorld (C : Type) extends World C where
  objC : C
  cpl : C → List C
  offset : Nat → C → Nat

/-- A method: a number that identifies it, its specializers, and for a slot accessor the number
    of the argument that is the instance (0 for getters, 1 for setters) and whether the owner of
    the slot is a primary class (`slot-dispatch.dylan:9-23`). -/
structure Meth (C : Type) where
  id : Nat
  specs : List (Ty C)
  acc : Option Nat := none
  fixed : Bool := true
  deriving DecidableEq

/-- The required arguments of a call. -/
abbrev Args (C : Type) := Nat → Obj C

/-- Result of comparing specializers or methods: `#"<"`, `#">"`, `#"="`, `#"<>"`. -/
inductive Ord where
  | lt | gt | eq | amb
  deriving DecidableEq, Repr

section
variable {C : Type} [DecidableEq C] (K : DWorld C)

/-- `%method-specializer` (`dispatch-prologue.dylan:425-449`). -/
def spec (m : Meth C) (a : Nat) : Ty C := (m.specs[a]?).getD (.cls K.objC)

/-! ### Ordering -/

/-- The loop of `%class<` over the superclasses of the reference class
    (`discrimination.dylan:1021-1033`).  At the end of the list the code signals an error;
    `classLess_defined` shows that this does not happen to applicable methods. -/
def classLess (c1 c2 : C) : List C → Bool
  | [] => false
  | c :: rest => if c = c1 then true else if c = c2 then false else classLess c1 c2 rest

/-- `%order-specializers-default` (`discrimination.dylan:1037-1046`). -/
def orderDefault (t1 t2 : Ty C) : Ord :=
  if isSub K.toWorld t1 t2 then (if isSub K.toWorld t2 t1 then .eq else .lt)
  else if isSub K.toWorld t2 t1 then .gt
  else .amb

/-- `%order-specializers` on two classes (`discrimination.dylan:1149-1150,1187-1191`). -/
def orderClasses (c1 c2 : C) (arg : Obj C) : Ord :=
  if c1 = c2 then .eq
  else if classLess c1 c2 (K.cpl (classOf K.toWorld arg)) then .lt else .gt

/-- The class precedence list of an argument that is a class (`let arg :: <class> = arg`,
    `discrimination.dylan:1159`; an error for any other argument). -/
def cplOfArg : Obj C → List C
  | .cls d => K.cpl d
  | _ => []

/-- `%order-specializers` (`discrimination.dylan:1146-1200`). -/
def orderSpec (t1 t2 : Ty C) (arg : Obj C) : Ord :=
  if t1 = t2 then .eq
  else match t1, t2 with
    | .single _, .single _ => .eq
    | .single _, _ => .lt
    | _, .single _ => .gt
    | .subclass c1, .subclass c2 =>
      if c1 = c2 then .eq
      else if classLess c1 c2 (cplOfArg K arg) then .lt else .gt
    | .subclass c1, .cls c2 =>
      if K.sub K.classC c2 then
        (if c1 = K.objC then orderClasses K K.classC c2 arg else .lt)
      else .amb
    | .subclass c1, t => orderDefault K (.subclass c1) t
    | .cls c1, .subclass c2 =>
      if K.sub K.classC c1 then
        (if c2 = K.objC then orderClasses K c1 K.classC arg else .gt)
      else .amb
    | t, .subclass c2 => orderDefault K t (.subclass c2)
    | .cls c1, .cls c2 => orderClasses K c1 c2 arg
    | t1, t2 => orderDefault K t1 t2

/-- The loop of `%order-methods` (`discrimination.dylan:980-998`) over the argument positions
    `idx, ..., nreq - 1`, given as a list. -/
def orderMethodsFrom (m1 m2 : Meth C) (args : Args C) : Ord → List Nat → Ord
  | state, [] => state
  | state, a :: rest =>
    let cmp := orderSpec K (spec K m1 a) (spec K m2 a) (args a)
    if cmp = .eq then orderMethodsFrom m1 m2 args state rest
    else if cmp ≠ .amb ∧ (state = .eq ∨ cmp = state) then orderMethodsFrom m1 m2 args cmp rest
    else .amb

/-- `%order-methods` (`discrimination.dylan:976-999`). -/
def orderMethods (nreq : Nat) (args : Args C) (m1 m2 : Meth C) : Ord :=
  orderMethodsFrom K m1 m2 args .eq (List.range nreq)

end

section Sorting
variable {M : Type} (ord : M → M → Ord)

/-- `precedes-all?` (`discrimination.dylan:882-893`). -/
def precedesAll (m : M) (l : List M) : Bool := l.all fun x => decide (ord m x = .lt)

/-- `make-ambiguous(oprev)` (`discrimination.dylan:869-881`): the ordered methods after `oprev`
    are moved in front of the ambiguous ones, one by one, and then `m`. -/
def makeAmbiguous (m : M) (osub ahead : List M) : List M × List M :=
  ([], m :: (osub.reverse ++ ahead))

/-- `check-subsequent-ambiguities(oprev)` (`discrimination.dylan:894-900`). -/
def checkSubsequent (m : M) (osub ahead : List M) : List M × List M :=
  if !precedesAll ord m osub || !precedesAll ord m ahead then makeAmbiguous m osub ahead
  else (m :: osub, ahead)

/-- `insert` (`discrimination.dylan:901-916`): the ordered methods from `osub` on, and the
    ambiguous ones, after `m` was put in its place.  `*gracefully-ignore-duplicate-methods*` is
    true, as initialised (934). -/
def insertMeth (m : M) : List M → List M → List M × List M
  | [], ahead => checkSubsequent ord m [] ahead
  | x :: osub, ahead =>
    match ord m x with
    | .lt => checkSubsequent ord m (x :: osub) ahead
    | .gt => let r := insertMeth m osub ahead; (x :: r.1, r.2)
    | .eq => (x :: osub, ahead)
    | .amb => makeAmbiguous m (x :: osub) ahead

/-- `compute-sorted-applicable-methods-1` (`discrimination.dylan:860-922`): ordered and
    ambiguous methods. -/
def sortFrom : List M → List M × List M → List M × List M
  | [], st => st
  | m :: rest, st => sortFrom rest (insertMeth ord m st.1 st.2)

/-- The whole sort, starting with empty lists. -/
def sortMethods (ms : List M) : List M × List M := sortFrom ord ms ([], [])

end Sorting

section
variable {C : Type} [DecidableEq C] (K : DWorld C)

/-! ### Which methods a class admits -/

/-- `has-instances?` on types other than unions (`class.dylan:949-959`,
    `singleton.dylan:163-170`, `subclass.dylan:171-177`, `limited-integer.dylan:173-178`,
    `limited-function.dylan:102-106`, `type.dylan:549-556`): are some, are all instances of the
    class instances of the type? -/
def hasInstances (c : C) : Ty C → Bool × Bool
  | .cls d => (K.sub c d, K.sub c d)
  | .single o => (K.sub (classOf K.toWorld o) c, false)
  | .union a b =>
    let r1 := hasInstances c a
    let r2 := hasInstances c b
    (r1.1 || r2.1, r1.2 || r2.2)
  | .subclass d => (K.sub c K.classC, K.sub c K.classC && decide (d = K.objC))
  | .limInt _ => (K.sub K.intC c || K.sub c K.intC, false)
  | .limFun _ => (K.sub K.funC c || K.sub c K.funC, false)
  | .limColl d _ _ _ => (K.sub c K.limCollC && K.sub c d, false)

/-- `grounded-has-instances?` (`dispatch.dylan:200-224`): singletons (outside unions) are
    treated apart. -/
def groundedHas (c : C) : Ty C → Bool × Bool
  | .single o => (decide (c = classOf K.toWorld o), false)
  | t => hasInstances K c t

/-- `prune-methods-by-known-class` (`discrimination.dylan:22-43`): the methods that remain. -/
def pruneByClass (a : Nat) (c : C) (ms : List (Meth C)) : List (Meth C) :=
  ms.filter fun m => (groundedHas K c (spec K m a)).1

/-- `prune-methods-by-known-class`: its value. -/
def allAccounted (a : Nat) (c : C) (ms : List (Meth C)) : Bool :=
  (pruneByClass K a c ms).all fun m => (groundedHas K c (spec K m a)).2

/-- `consider-arg-discriminated` (`discrimination.dylan:48-67`): the methods that remain. -/
def consider (a : Nat) (x : Obj C) (ms : List (Meth C)) : List (Meth C) :=
  ms.filter fun m => isInst K.toWorld x (spec K m a)

/-- `secondary-dispatch-specializer?` (`discrimination.dylan:579-589`). -/
def secondary (c : C) : Ty C → Bool
  | .union a b => secondary c a || secondary c b
  | t => (groundedHas K c t).1 && !(groundedHas K c t).2

/-- `same-specializer?` (`discrimination.dylan:1203-1226`). -/
def sameSpec (s1 s2 : Ty C) : Bool :=
  match s1 with
  | .cls _ => decide (s1 = s2)
  | .single o => match s2 with
    | .single p => decide (o = p)
    | _ => false
  | .subclass c => match s2 with
    | .subclass d => decide (c = d)
    | _ => false
  | _ => decide (s1 = s2) || (isSub K.toWorld s1 s2 && isSub K.toWorld s2 s1)

/-- The variable `subtype-exception` of `ponder-this-arg`: `#f`, a type, or `#t`. -/
inductive Exc (C : Type) where
  | no
  | one (t : Ty C)
  | many

/-- The five values of `ponder-this-arg`. -/
structure Pondered (C : Type) where
  secondary : Bool
  force : Bool
  allSub : Bool
  someSub : Bool
  exc : Exc C

/-- `slot-method-requiring-class-discrimination?` (`slot-dispatch.dylan:9-23`). -/
def requiresClass (m : Meth C) (a : Nat) : Bool := decide (m.acc = some a) && !m.fixed

/-- The update of `subtype-exception` (`discrimination.dylan:622-632`). -/
def nextExc (e : Exc C) (s : Ty C) : Exc C :=
  match e with
  | .no => .one s
  | .one t => if sameSpec K t s then .one s else .many
  | .many => .many

/-- One round of the loop of `ponder-this-arg` (`discrimination.dylan:610-633`); the type known
    for the argument is `<object>`, on which `concrete-subtype?` is `subtype?`
    (`dispatch.dylan:155-158`). -/
def ponderStep (a : Nat) (c : C) (p : Pondered C) (m : Meth C) : Pondered C :=
  let s := spec K m a
  let sec := p.secondary || secondary K c s
  let force := p.force || requiresClass m a
  if isSub K.toWorld (.cls K.objC) s then
    { secondary := sec, force := force, allSub := p.allSub, someSub := true, exc := p.exc }
  else
    { secondary := sec, force := force, allSub := false, someSub := p.someSub,
      exc := nextExc K p.exc s }

/-- `ponder-this-arg` (`discrimination.dylan:592-635`). -/
def ponder (a : Nat) (c : C) (ms : List (Meth C)) : Pondered C :=
  ms.foldl (ponderStep K a c)
    { secondary := false, force := false, allSub := true, someSub := false, exc := .no }

/-- What `ponder-a-specializer` collects. -/
structure SubInfo (C : Type) where
  subclassP : Bool
  singletons : List (Obj C)
  others : List (Ty C)

/-- `ponder-a-specializer` (`discrimination.dylan:458-486`). -/
def ponderSpec (c : C) : Ty C → SubInfo C → SubInfo C
  | .cls _, i => i
  | .single o, i =>
    if classOf K.toWorld o = c then
      { subclassP := i.subclassP, singletons := o :: i.singletons, others := i.others }
    else i
  | .subclass _, i => { subclassP := true, singletons := i.singletons, others := i.others }
  | .union a b, i => ponderSpec c b (ponderSpec c a i)
  | t, i =>
    if (groundedHas K c t).1 then
      { subclassP := i.subclassP, singletons := i.singletons, others := t :: i.others }
    else i

/-- The loop of `compute-subdiscriminator-for-arg` over the methods
    (`discrimination.dylan:446-451`). -/
def ponderSub (a : Nat) (c : C) (ms : List (Meth C)) : SubInfo C :=
  ms.foldl (fun i m => ponderSpec K c (spec K m a) i)
    { subclassP := false, singletons := [], others := [] }

/-! ### Engine nodes -/

/-- The kinds of table: by the class of the argument, by the argument itself which is a class,
    by the argument itself. -/
inductive Kind where
  | byClass | bySingleton | singles
  deriving DecidableEq, Repr

mutual
/-- Engine nodes: `$absent-engine-node`, `$inapplicable-engine-node`, terminal nodes
    (`new-dispatch.dylan:472-527`), tables with a default (530-1150, 1230-1425) and type tests
    (1198-1218).  The key of a table by class is the class as an object. -/
inductive Node (C : Type) where
  | absent
  | inapplicable
  | leaf (ordered : List (Nat × Option Nat)) (ambiguous : List Nat)
  | table (k : Kind) (arg : Nat) (t : Tbl C) (default : Node C)
  | ifType (arg : Nat) (t : Ty C) (thn els : Node C)
/-- The entries of a table. -/
inductive Tbl (C : Type) where
  | nil
  | cons (key : Obj C) (n : Node C) (rest : Tbl C)
end

deriving instance DecidableEq for Node, Tbl

/-- The key under which an argument is looked up (`object-class-unique-key(arg)`,
    `class-unique-key(arg)`, `arg`: `new-dispatch.dylan:846-856,961-971,1381-1392`). -/
def keyOf (k : Kind) (x : Obj C) : Obj C :=
  match k with
  | .byClass => .cls (classOf K.toWorld x)
  | _ => x

mutual
/-- Walking down the tree (`%gf-dispatch-...`, `new-dispatch.dylan:846-856,961-971,1198-1206,
    1381-1392`) to a node that is not a discriminator. -/
def run (args : Args C) : Node C → Node C
  | .table k a t d => runTbl args (keyOf K k (args a)) t (run args d)
  | .ifType a t thn els => if isInst K.toWorld (args a) t then run args thn else run args els
  | n => n
/-- Looking up a key; `d` is where the default leads. -/
def runTbl (args : Args C) (key : Obj C) : Tbl C → Node C → Node C
  | .nil, d => d
  | .cons k n rest, d => if k = key then run args n else runTbl args key rest d
end

/-- The action for one method: its number, with the location of the slot in instances of the
    class of the argument for slot accessors (`slot-dispatch.dylan:255-291`). -/
def action (args : Args C) (m : Meth C) : Nat × Option Nat :=
  (m.id, m.acc.map fun a => K.offset m.id (classOf K.toWorld (args a)))

/-- `compute-terminal-engine-node` (`discrimination.dylan:678-711`) and
    `transmogrify-method-list-grounded` (715-767), without the attempt to order ambiguous
    methods.  The second component is true if `dispinapplicable` was called
    (`new-dispatch.dylan:1458-1461`). -/
def terminal (nreq : Nat) (args : Args C) (ms : List (Meth C)) : Node C × Bool :=
  let r := sortMethods (orderMethods K nreq args) ms
  if r.1 = [] ∧ r.2 = [] then (.absent, true)
  else (.leaf (r.1.map (action K args)) (r.2.map Meth.id), false)

/-- `subsumed?` (`discrimination.dylan:491-499`). -/
def subsumed (t : Ty C) (l : List (Ty C)) : Bool := l.any fun u => isSub K.toWorld t u

/-- The local method `foo` of `compute-default-subdiscriminator`
    (`discrimination.dylan:500-523`). -/
def nestIfs (a : Nat) (x : Obj C) : List (Ty C) → List (Ty C) → List (Ty C) → Node C → Node C
  | [], _, _, nextd => nextd
  | s :: rest, trues, falses, nextd =>
    let branch : Node C × Node C :=
      if nextd = .absent then (nextd, nextd)
      else if isInst K.toWorld x s then (nextd, .absent)
      else (.absent, nextd)
    if subsumed K s trues then nestIfs a x rest trues falses branch.1
    else if subsumed K s falses then nestIfs a x rest trues falses branch.2
    else .ifType a s (nestIfs a x rest (s :: trues) falses branch.1)
      (nestIfs a x rest trues (s :: falses) branch.2)

/-- The table of a singleton discriminator, all of whose values are absent, except that `x`
    leads to `n` (`new-dispatch.dylan:1230-1256,1361-1379`; only the first occurrence of a key
    is assigned). -/
def singlesTbl (x : Obj C) (n : Node C) : List (Obj C) → Tbl C
  | [] => .nil
  | o :: rest =>
    if o = x then .cons o n (singlesTbl x .absent rest) else .cons o .absent (singlesTbl x n rest)

/-- Whether `class-unique-key(x)` works. -/
def isClassObj : Obj C → Bool
  | .cls _ => true
  | _ => false

/-- What `compute-subdiscriminator-for-arg` puts around the rest of the engine
    (`discrimination.dylan:417-445`), for the methods `ms` that the class admits.  `none`: the
    argument is asked for its class key but is not a class. -/
def wrapSub (a : Nat) (x : Obj C) (ms : List (Meth C)) (nextd : Node C) : Option (Node C) :=
  let c := classOf K.toWorld x
  let i := ponderSub K a c ms
  if i.subclassP || (decide (i.singletons ≠ []) && K.sub c K.classC) then
    (if isClassObj x then some (.table .bySingleton a (.cons x nextd .nil) .absent) else none)
  else if i.singletons ≠ [] then
    (if x ∈ i.singletons then some (.table .singles a (singlesTbl x nextd i.singletons) .absent)
     else some (.table .singles a (singlesTbl x .absent i.singletons)
       (nestIfs K a x i.others [] [] nextd)))
  else some (nestIfs K a x i.others [] [] nextd)

/-- What `compute-discriminator-for-arg` decides to do about an argument
    (`discrimination.dylan:539-573`): nothing, one type test (between one specializer and
    `<object>`, or else inapplicable), a table by class, or a table by class with further
    discrimination below. -/
inductive Plan (C : Type) where
  | skip
  | test (t : Ty C) (others : Bool)
  | byClass
  | byClassSub

/-- The decision. -/
def plan (p : Pondered C) : Plan C :=
  if !p.force && p.allSub then .skip
  else
    match p.force, p.exc with
    | false, .one t => .test t p.someSub
    | _, _ => if p.secondary then .byClassSub else .byClass

/-- `compute-more-dispatch-engine` (`discrimination.dylan:399-409`),
    `compute-discriminator-for-arg` (529-576) and `compute-subdiscriminator-for-arg` (414-455),
    with the argument numbers still to be considered, in the order in which
    `select-next-arg-for-discrimination` (237-268) picks them. -/
def computeMore (nreq : Nat) (args : Args C) :
    List Nat → List (Meth C) → Option (Node C × Bool)
  | [], ms => some (terminal K nreq args ms)
  | a :: todo, ms =>
    if ms = [] then some (.absent, true)
    else
      let x := args a
      let c := classOf K.toWorld x
      match plan (ponder K a c ms) with
      | .skip => computeMore nreq args todo (consider K a x ms)
      | .test t others =>
        (computeMore nreq args todo (consider K a x ms)).map fun r =>
          (if !others then .ifType a t r.1 .inapplicable
           else if isInst K.toWorld x t then .ifType a t r.1 .absent
           else .ifType a t .absent r.1, r.2)
      | .byClass =>
        (computeMore nreq args todo (consider K a x ms)).map fun r =>
          (.table .byClass a (.cons (.cls c) r.1 .nil) .absent, r.2)
      | .byClassSub =>
        (computeMore nreq args todo (consider K a x (pruneByClass K a c ms))).bind fun r =>
          (wrapSub K a x (pruneByClass K a c ms) r.1).map fun n =>
            (.table .byClass a (.cons (.cls c) n .nil) .absent, r.2)

/-- The node for a class without one, in a table by class (`discrimination.dylan:281-293`). -/
def classMiss (nreq : Nat) (args : Args C) (a : Nat) (todo : List Nat) (ms : List (Meth C)) :
    Option (Node C × Bool) :=
  let c := classOf K.toWorld (args a)
  let ms' := pruneByClass K a c ms
  (computeMore K nreq args todo (consider K a (args a) ms')).bind fun r =>
    if allAccounted K a c ms then some r
    else (wrapSub K a (args a) ms' r.1).map fun n => (n, r.2)

/-- Whether a singleton table has the key. -/
def hasKey (key : Obj C) : Tbl C → Bool
  | .nil => false
  | .cons k _ rest => decide (k = key) || hasKey key rest

mutual
/-- `walk-existing-dispatch-engine` (`discrimination.dylan:271-396`): the new node, with the
    argument numbers that are not considered yet and the methods that are left.
    Simplification: entries are replaced by equal ones where the code leaves them alone. -/
def walk (nreq : Nat) (args : Args C) :
    Node C → List Nat → List (Meth C) → Option (Node C × Bool)
  | .absent, todo, ms => computeMore K nreq args todo ms
  | .inapplicable, _, _ => some (.inapplicable, false)
  | .leaf o m, _, _ => some (.leaf o m, false)
  | .ifType a t thn els, todo, ms =>
    let ms' := consider K a (args a) ms
    if isInst K.toWorld (args a) t then
      (walk nreq args thn (todo.filter (· ≠ a)) ms').map fun r => (.ifType a t r.1 els, r.2)
    else
      (walk nreq args els (todo.filter (· ≠ a)) ms').map fun r => (.ifType a t thn r.1, r.2)
  | .table .byClass a t _, todo, ms =>
    (walkTbl nreq args a (.cls (classOf K.toWorld (args a))) true (todo.filter (· ≠ a))
        (pruneByClass K a (classOf K.toWorld (args a)) ms)
        (classMiss K nreq args a (todo.filter (· ≠ a)) ms) t).map fun r =>
      (.table .byClass a r.1 .absent, r.2)
  | .table .bySingleton a t _, todo, ms =>
    if isClassObj (args a) then
      (walkTbl nreq args a (args a) false (todo.filter (· ≠ a)) (consider K a (args a) ms)
          (computeMore K nreq args (todo.filter (· ≠ a)) (consider K a (args a) ms)) t).map
        fun r => (.table .bySingleton a r.1 .absent, r.2)
    else none
  | .table .singles a t d, todo, ms =>
    if hasKey (args a) t then
      (walkTbl nreq args a (args a) false (todo.filter (· ≠ a)) (consider K a (args a) ms)
          none t).map fun r => (.table .singles a r.1 d, r.2)
    else
      (walk nreq args d (todo.filter (· ≠ a)) (consider K a (args a) ms)).map fun r =>
        (.table .singles a t r.1, r.2)
/-- Replacing the entry for a key, which is added with the node `miss` at the end if there is
    none.  For a table by class (`cls`), an absent entry is as good as none
    (`discrimination.dylan:284-299`). -/
def walkTbl (nreq : Nat) (args : Args C) (a : Nat) (key : Obj C) (cls : Bool)
    (todo : List Nat) (ms : List (Meth C)) (miss : Option (Node C × Bool)) :
    Tbl C → Option (Tbl C × Bool)
  | .nil => miss.map fun r => (.cons key r.1 .nil, r.2)
  | .cons k n rest =>
    if k = key then
      if cls then
        (if n = .absent then miss
         else walk nreq args n todo (consider K a (args a) ms)).map fun r =>
          (.cons k r.1 rest, r.2)
      else (walk nreq args n todo ms).map fun r => (.cons k r.1 rest, r.2)
    else
      (walkTbl nreq args a key cls todo ms miss rest).map fun r => (.cons k n r.1, r.2)
end

/-- `handle-missed-dispatch` (`new-dispatch.dylan:1482-1519`) with
    `compute-dispatch-from-root` (`discrimination.dylan:120-129`): the new root, and whether
    `$inapplicable-engine-node` is to be invoked. `order` is a list of all argument numbers, those
    of the precheck mask first (`dispatch-caches.dylan:188-210`). -/
def miss (nreq : Nat) (order : List Nat) (ms : List (Meth C)) (args : Args C) (root : Node C) :
    Option (Node C × Bool) := walk K nreq args root order ms

/-- How a call ends: with the error that no method is applicable, or by invoking the methods of
    a terminal node. -/
inductive Outcome where
  | inapplicable
  | invoke (ordered : List (Nat × Option Nat)) (ambiguous : List Nat)
  deriving DecidableEq

/-- The outcome of invoking an engine node that is not a discriminator; `none` for the absent
    one, which starts another round. -/
def outcome : Node C → Option Outcome
  | .inapplicable => some .inapplicable
  | .leaf o m => some (.invoke o m)
  | _ => none

/-- A call: invoke the root; on a miss extend the tree and either signal the error that was
    left or start again with the new root (`new-dispatch.dylan:430-441,1504-1518`), for at most
    `rounds` misses.  `none`: an error inside the dispatcher, or still a miss. -/
def call (nreq : Nat) (order : List Nat) (ms : List (Meth C)) (args : Args C) :
    Nat → Node C → Option (Outcome × Node C)
  | 0, root => (outcome (run K args root)).map fun o => (o, root)
  | rounds + 1, root =>
    match outcome (run K args root) with
    | some r => some (r, root)
    | none =>
      (miss K nreq order ms args root).bind fun r =>
        if r.2 then some (.inapplicable, r.1) else call nreq order ms args rounds r.1

end
end Verif.Dispatch
