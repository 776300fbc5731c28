/-
Model of the Dylan run-time type relations: `instance?`, `subtype?` and
`disjoint-types?`
  /repo/sources/dylan/type.dylan, union.dylan, singleton.dylan, subclass.dylan,
  limited-integer.dylan, limited-function.dylan, class.dylan

Each of `subtype?`, `disjoint-types?` and `disjoint-types-1?` is a generic function in the
code; here it is one function whose equations are the methods, in the order in which the
dispatcher would pick them.  For some pairs of type kinds there is no applicable method: the
call signals an error at run time.  That outcome is `none`.

Simplifications, common to the whole file:
* the class heterarchy is abstract (`World`): an order `sub` with the few classes the code
  names.  How `subclass?` computes the order is not modelled here;
* only the empty subjunctive universe (no class redefinition in progress) is modelled;
* dependency registration (`dep`) has no effect on the answer and is left out;
* objects are compared by identity, which is the structural equality of `Obj`; value objects
  with an `=` that differs from identity (floats) are not modelled;
* the dimensions and the element type of a collection are those at the time of the call.
-/
import Mathlib.Data.List.Basic

namespace Verif.Types

/-- An `<integer>` value: 62 bits, signed
    (`sources/dylan/integer.dylan:18-30`, 64-bit run time). -/
abbrev Fix := BitVec 62

/-- The bounds stored in a `<limited-integer>`.  At least one is present, because `limited`
    makes a `<limited-integer>` only `if (min | max)` (`limited-integer.dylan:13-27`). -/
inductive Bounds where
  | minOnly (m : Fix)
  | maxOnly (M : Fix)
  | both (m M : Fix)
  deriving DecidableEq, Repr

mutual
/-- A type object.  `limColl c e size dims` is `limited(c, of: e, size: size, dimensions: dims)`
    (`type.dylan:190-318`), `limFun s` a `<limited-function>` with signature number `s`. -/
inductive Ty (C : Type) where
  | cls (c : C)
  | single (o : Obj C)
  | union (a b : Ty C)
  | limInt (b : Bounds)
  | subclass (c : C)
  | limColl (c : C) (e : Ty C) (size : Option Nat) (dims : Option (List Nat))
  | limFun (s : Nat)
/-- An object, as far as the type relations can tell objects apart: an integer, a class, a
    collection with an element type and dimensions, a function with signature number `s`, or
    anything else.  `id` tells apart objects that agree in the rest. -/
inductive Obj (C : Type) where
  | int (i : Fix)
  | cls (c : C)
  | coll (c : C) (e : Ty C) (dims : List Nat) (id : Nat)
  | fn (c : C) (s : Nat) (id : Nat)
  | other (c : C) (id : Nat)
end

deriving instance DecidableEq for Ty, Obj

/-- What the type relations consult about the class heterarchy and the heap.
    * `sub`: `subclass?` (`class.dylan:905-932`);
    * `metaC c`: the class of the class object `c`;
    * `classC`, `intC`, `funC`, `limCollC`: `<class>`, `<integer>`, `<function>`,
      `<limited-collection>`;
    * `collKind`: the four `instance?` tests that open `limited-collection-instance?`
      (`type.dylan:399-401`), which depend only on the class of the object;
    * `congr`: `congruent?` on signatures (`limited-function.dylan:39`);
    * `primary`, `joint`: `class-primary?` and `class-known-joint` of a class;
    * `same`: whether two type objects found in the heap are one and the same object. -/
structure World (C : Type) where
  sub : C → C → Bool
  metaC : C → C
  classC : C
  intC : C
  funC : C
  limCollC : C
  collKind : C → Bool
  congr : Nat → Nat → Bool
  primary : C → Bool
  joint : C → List C
  same : Ty C → Ty C → Bool

/-- Short-circuit `&` on answers; an error in an evaluated operand is an error. -/
def andO : Option Bool → Option Bool → Option Bool
  | none, _ => none
  | some false, _ => some false
  | some true, y => y

/-- Short-circuit `|` on answers. -/
def orO : Option Bool → Option Bool → Option Bool
  | none, _ => none
  | some true, _ => some true
  | some false, y => y

/-- `~` on answers. -/
def notO : Option Bool → Option Bool
  | none => none
  | some b => some (!b)

section
variable {C : Type} [DecidableEq C] (K : World C)

/-- `object-class`. -/
def classOf : Obj C → C
  | .int _ => K.intC
  | .cls c => K.metaC c
  | .coll c _ _ _ => c
  | .fn c _ _ => c
  | .other c _ => c

/-- `interpret-integer-as-machine-word`: the tagged word of an integer, two tag bits `01`
    (`sources/dylan/integer.dylan`, `machine-word.dylan`; `sources/lib/run-time/run-time.h`). -/
def tagWord (i : Fix) : BitVec 64 := BitVec.ofInt 64 (4 * i.toInt + 1)

/-- The three `instance?` functions of limited integers, on a given integer
    (`limited-integer.dylan:35-83`) as chosen by `instance?-function` (86-95):
    with two bounds, one unsigned comparison of differences of tagged words; with one bound, a
    signed comparison of tagged words. -/
def limIntTest (i : Fix) : Bounds → Bool
  | .both m M => decide ((tagWord i - tagWord m).toNat ≤ (tagWord M - tagWord m).toNat)
  | .minOnly m => decide ((tagWord m).toInt ≤ (tagWord i).toInt)
  | .maxOnly M => decide ((tagWord i).toInt ≤ (tagWord M).toInt)

/-- `limited(<integer>, min: , max: )` (`limited-integer.dylan:13-27`). -/
def limitedInteger (mn mx : Option Fix) : Ty C :=
  match mn, mx with
  | none, none => .cls K.intC
  | some m, none => .limInt (.minOnly m)
  | none, some M => .limInt (.maxOnly M)
  | some m, some M => .limInt (.both m M)

/-- `limited-integer-min`. -/
def Bounds.min? : Bounds → Option Fix
  | .minOnly m => some m
  | .maxOnly _ => none
  | .both m _ => some m

/-- `limited-integer-max`. -/
def Bounds.max? : Bounds → Option Fix
  | .minOnly _ => none
  | .maxOnly M => some M
  | .both _ M => some M

/-- The local method `satisifies-bound` of `subtype?` on limited integers
    (`limited-integer.dylan:106-113`), with `satisfied?` an order on integers. -/
def satisfiesBound (satisfied : Int → Int → Bool) : Option Fix → Option Fix → Bool
  | _, none => true
  | some v, some b => satisfied v.toInt b.toInt
  | none, some _ => false

/-- `subtype?(<limited-integer>, <limited-integer>)` (`limited-integer.dylan:103-116`). -/
def limIntSub (a b : Bounds) : Bool :=
  satisfiesBound (fun v bd => decide (v ≥ bd)) a.min? b.min? &&
    satisfiesBound (fun v bd => decide (v ≤ bd)) a.max? b.max?

/-- `max1 & min2 & max1 < min2`, one half of `disjoint-types-1?` on limited integers
    (`limited-integer.dylan:160-162`). -/
def below : Option Fix → Option Fix → Bool
  | some x, some y => decide (x.toInt < y.toInt)
  | _, _ => false

/-- `disjoint-types-1?(<limited-integer>, <limited-integer>)` (`limited-integer.dylan:152-169`). -/
def limIntDisj (a b : Bounds) : Bool :=
  below a.max? b.min? || below b.max? a.min?

/-- `every?(\=, xs, ys)`: compares as many elements as the shorter list has
    (`sources/dylan/collection.dylan`, `every?` over multiple sequences). -/
def everyEq : List Nat → List Nat → Bool
  | x :: xs, y :: ys => decide (x = y) && everyEq xs ys
  | _, _ => true

/-- `reduce1(\*, dims)`: an error on an empty sequence. -/
def reduce1Mul : List Nat → Option Nat
  | [] => none
  | d :: ds => some (ds.foldl (· * ·) d)

/-- `size` of an array with these dimensions (`sources/dylan/array.dylan`: `reduce(\*, 1, ..)`). -/
def sizeOfDims (dims : List Nat) : Nat := dims.foldl (· * ·) 1

/-- The size and dimension conditions of `limited-collection-instance?` on a collection with
    dimensions `xd` (`type.dylan:405-406`). -/
def shapeInst (xd : List Nat) (size : Option Nat) (dims : Option (List Nat)) : Bool :=
  (match size with
   | none => true
   | some s => decide (sizeOfDims xd = s)) &&
  (match dims with
   | none => true
   | some d => everyEq xd d)

/-- `~s2 | reduce1(\*, d1) = s2` (`type.dylan:454`). -/
def sizeByDims (d1 : List Nat) : Option Nat → Option Bool
  | none => some true
  | some s => match reduce1Mul d1 with
    | none => none
    | some p => some (decide (p = s))

/-- The size and dimension conditions of `subtype?` on limited collection types
    (`type.dylan:451-455`). -/
def shapeSub (s1 : Option Nat) (d1 : Option (List Nat))
    (s2 : Option Nat) (d2 : Option (List Nat)) : Option Bool :=
  match d1, d2 with
  | none, none => match s2 with
    | none => some true
    | some s => some (decide (s1 = some s))
  | none, some _ => some false
  | some d1, none => sizeByDims d1 s2
  | some d1, some d2 => andO (some (everyEq d1 d2)) (sizeByDims d1 s2)

mutual
/-- `instance?(x, t)`:
    classes: `subclass?(object-class(x), c)`;
    singletons: identity (`singleton.dylan:75-84`);
    unions: `union-instance?` (`union.dylan:98-100`);
    limited integers (`limited-integer.dylan:35-83`);
    subclass types: `subclass-instance?` (`subclass.dylan:33-40`);
    limited collections: `limited-collection-instance?` (`type.dylan:390-407`);
    limited functions (`limited-function.dylan:33-42`). -/
def inst : Obj C → Ty C → Option Bool
  | x, .cls c => some (K.sub (classOf K x) c)
  | x, .single o => some (decide (x = o))
  | x, .union a b => orO (inst x a) (inst x b)
  | .int i, .limInt b => some (limIntTest i b)
  | _, .limInt _ => some false
  | .cls d, .subclass c => some (K.sub d c)
  | _, .subclass _ => some false
  | .coll xc xe xd _, .limColl c e size dims =>
    andO (some (K.collKind xc)) (andO (some (K.sub xc c)) (andO (equiv xe e)
      (some (shapeInst xd size dims))))
  | _, .limColl _ _ _ _ => some false
  | .fn xc xs _, .limFun s => some (K.sub xc K.funC && K.congr s xs)
  | _, .limFun _ => some false
termination_by x t => 2 * (sizeOf x + sizeOf t)

/-- `type-equivalent?`, i.e. `subjunctive-type-equivalent?` in the empty universe
    (`type.dylan:423-436`): on two classes only identity, otherwise identity or mutual
    `subtype?`. -/
def equiv : Ty C → Ty C → Option Bool
  | .cls c, .cls d => some (decide (c = d))
  | a, b => if K.same a b then some true else andO (sub a b) (sub b a)
termination_by a b => 2 * (sizeOf a + sizeOf b) + 1
decreasing_by all_goals omega

/-- `subtype?(a, b)`.  Methods, in the order of the equations:
    `(<union>, <union>)`, `(<union>, <type>)`, `(<union>, <singleton>)`,
    `(<union>, <limited-collection-type>)` (`union.dylan:107-126,144-147`, `type.dylan:516-519`);
    `(<singleton>, <singleton>)` (`singleton.dylan:90-93`);
    `(<singleton>, <union>)` (`union.dylan:148-151`);
    `(<singleton>, <subclass>)` (`subclass.dylan:67-76`);
    `(<singleton>, <type>)`, `(<singleton>, <limited-collection-type>)`
    (`singleton.dylan:95-98`, `type.dylan:492-495`);
    `(<type>, <union>)`, `(<limited-collection-type>, <union>)` (`union.dylan:127-130`,
    `type.dylan:521-524`);
    `(<type>, <singleton>)` and tie breakers (`singleton.dylan:100-110`, `subclass.dylan:62-65`);
    `(<class>, <class>)` (`class.dylan:935-938`);
    `(<class>, <limited-integer>)`, `(<limited-integer>, <class>)`
    (`limited-integer.dylan:128-136`);
    `(<class>, <subclass>)`, `(<subclass>, <class>)` (`subclass.dylan:99-108`);
    `(<class>, <limited-function>)`, `(<limited-function>, <class>)`
    (`limited-function.dylan:67-75`);
    `(<type>, <limited-collection-type>)`, `(<limited-collection-type>, <type>)`,
    `(<limited-collection-type>, <class>)`, `(<limited-collection-type>,
    <limited-collection-type>)` (`type.dylan:438-456,481-484,503-506,538-541`);
    `(<limited-integer>, <limited-integer>)` (`limited-integer.dylan:103-116`);
    `(<subclass>, <subclass>)` (`subclass.dylan:47-50`);
    `(<limited-function>, <limited-function>)` (`limited-function.dylan:52-56`);
    no method for two different kinds out of limited integer, subclass and limited function. -/
def sub : Ty C → Ty C → Option Bool
  | .union a1 a2, b => andO (sub a1 b) (sub a2 b)
  | .single o, .single p => some (decide (o = p))
  | .single o, .union b1 b2 => orO (inst o b1) (inst o b2)
  | .single o, .subclass c => match o with
    | .cls d => some (K.sub d c)
    | _ => some false
  | .single o, b => inst o b
  | a, .union b1 b2 => orO (sub a b1) (sub a b2)
  | _, .single _ => some false
  | .cls c, .cls d => some (K.sub c d)
  | .cls _, .limInt _ => some false
  | .cls c, .subclass d => some (decide (c = K.classC) && decide (d = K.classC))
  | .cls _, .limFun _ => some false
  | .limInt _, .cls d => some (K.sub K.intC d)
  | .subclass _, .cls d => some (K.sub K.classC d)
  | .limFun _, .cls d => some (K.sub K.funC d)
  | .limColl c _ _ _, .cls d => some (K.sub c d)
  | .limColl c1 e1 s1 d1, .limColl c2 e2 s2 d2 =>
    andO (some (K.sub c1 c2)) (andO (equiv e1 e2) (shapeSub s1 d1 s2 d2))
  | _, .limColl _ _ _ _ => some false
  | .limColl _ _ _ _, _ => some false
  | .limInt a, .limInt b => some (limIntSub a b)
  | .subclass c, .subclass d => some (K.sub c d)
  | .limFun _, .limFun _ => some false
  | .limInt _, .subclass _ => none
  | .limInt _, .limFun _ => none
  | .subclass _, .limInt _ => none
  | .subclass _, .limFun _ => none
  | .limFun _, .limInt _ => none
  | .limFun _, .subclass _ => none
termination_by a b => 2 * (sizeOf a + sizeOf b)
end

/-- `disjoint-types-1?(<class>, <class>)` (`class.dylan:998-1016`). -/
def disjCls (c d : C) : Bool :=
  !K.sub c d && !K.sub d c &&
    ((K.primary c && K.primary d) ||
      (!decide (c ∈ K.joint d) && !decide (d ∈ K.joint c)))

/-- First value of `has-instances?(c, t)` for a limited type that is not a subclass type
    (`singleton.dylan:163-170`, `limited-integer.dylan:173-178`, `limited-function.dylan:102-106`,
    `type.dylan:549-556`), as reached from `disjoint-grounded-has-instances?`
    (`type.dylan:558-570`, `dispatch.dylan:200-225`).  Only called on those kinds. -/
def hasInst (c : C) : Ty C → Bool
  | .single o => K.sub (classOf K o) c
  | .limInt _ => K.sub K.intC c || K.sub c K.intC
  | .limFun _ => K.sub K.funC c || K.sub c K.funC
  | .limColl c' _ _ _ => K.sub c K.limCollC && K.sub c c'
  | _ => false

/-- `disjoint-types-1?` (`type.dylan:48-63,572-592` and the files above). -/
def disj1 : Ty C → Ty C → Option Bool
  | .cls c, .cls d => some (disjCls K c d)
  | .single o, .single p => some (decide (o ≠ p))
  | .limInt a, .limInt b => some (limIntDisj a b)
  | .subclass c, .subclass d => some (disjCls K c d)
  | .subclass _, .cls d => some (disjCls K K.classC d)
  | .cls c, .subclass _ => some (disjCls K K.classC c)
  | .limFun _, .limFun _ => some true
  | .cls c, .single o => some (!hasInst K c (.single o))
  | .cls c, .limInt b => some (!hasInst K c (.limInt b))
  | .cls c, .limFun s => some (!hasInst K c (.limFun s))
  | .cls c, .limColl c' e s d => some (!hasInst K c (.limColl c' e s d))
  | .single o, .cls c => some (!hasInst K c (.single o))
  | .limInt b, .cls c => some (!hasInst K c (.limInt b))
  | .limFun s, .cls c => some (!hasInst K c (.limFun s))
  | .limColl c' e s d, .cls c => some (!hasInst K c (.limColl c' e s d))
  | a, b => andO (notO (sub K a b)) (notO (sub K b a))

/-- `disjoint-types?` (`type.dylan:39-44`, `union.dylan:169-195`). -/
def disj : Ty C → Ty C → Option Bool
  | .union a1 a2, .union b1 b2 =>
    andO (disj a1 b1) (andO (disj a1 b2) (andO (disj a2 b1) (disj a2 b2)))
  | .union a1 a2, b => andO (disj a1 b) (disj a2 b)
  | a, .union b1 b2 => andO (disj a b1) (disj a b2)
  | a, b => disj1 K a b
termination_by a b => sizeOf a + sizeOf b

/-- `type-union(t, more...)` (`union.dylan:22-42`): a left-nested chain of pairwise unions in
    which a type is not united with itself (`merge-types`, 87-90, makes the pair). -/
def typeUnion (t : Ty C) (more : List (Ty C)) : Ty C :=
  more.foldl (fun u v => if K.same u v then u else .union u v) t

end
end Verif.Types
