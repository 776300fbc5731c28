/-
Model of class creation in the Dylan library: the class precedence list, the reversed precedence
list ("rcpl") vectors, the position data that later classes add to earlier ones, the `instance?`
and `subclass?` tests that read them, and the table of classes known to be joint.

Classes are named by their number in the world, a list of class records; `<object>` is class 0.
A world is built by run-time class creation, `make(<class>, superclasses: ...)`, and by loading
libraries whose classes the compiler has laid out.

Not modelled: sealed and abstract flags, slots (see `Verif.Slots`), class redefinition, classes
that are left incomplete (superclasses must be complete, `class-dynamic.dylan:131-135`), and the
lock around the updates (one class is installed at a time).
-/
import Mathlib.Data.List.Basic
import Mathlib.Data.List.Nodup

namespace Verif.Class

/-- The ways class creation can fail.
    * `inconsistent`: `<inconsistent-precedence-class-error>`;
    * `primaries`: "attempts to combine unrelated primary classes";
    * `noClass`: a superclass that is not a class;
    * `assertion`: the assertion `pos >= first-pos` in `augment-iclass-rcpl-position-data` fails;
    * `bounds`: a vector is read or written outside its bounds;
    * `notClass`: a vector entry is `#f` where a class is required;
    * `fuel`: the recursion went on for longer than the model allows. -/
inductive Err where
  | inconsistent | primaries | noClass | assertion | bounds | notClass | fuel
  deriving DecidableEq, Repr

/-! ### Precedence lists -/

/-- `candidate-at-head` (`class-dynamic.dylan:576-588`): the head of the list, unless it is a
    member of the tail of some remaining list. -/
def candidateAtHead (ls : List (List Nat)) : List Nat → Option Nat
  | [] => none
  | h :: _ => if ls.any (fun l => decide (h ∈ l.tail)) then none else some h

/-- `let next = any?(candidate-at-head, remaining-lists)` (`class-dynamic.dylan:590`). -/
def nextC3 (ls : List (List Nat)) : Option Nat := ls.findSome? (candidateAtHead ls)

/-- `remove-next` (`class-dynamic.dylan:593-595`, `660-662`). -/
def removeNext (n : Nat) : List Nat → List Nat
  | [] => []
  | h :: t => if h = n then t else h :: t

/-- `merge-lists` (`class-dynamic.dylan:571-604`; the compiler's copy is
    `define-class-mop.dylan:922-985`).  The first argument bounds the recursion; `mergeFuel` is
    always enough. -/
def mergeC3 : Nat → List Nat → List (List Nat) → Except Err (List Nat)
  | 0, partialCpl, ls =>
    if ls.all List.isEmpty then .ok partialCpl.reverse else .error .fuel
  | n + 1, partialCpl, ls =>
    if ls.all List.isEmpty then .ok partialCpl.reverse
    else match nextC3 ls with
      | some next => mergeC3 n (next :: partialCpl) (ls.map (removeNext next))
      | none => .error .inconsistent

/-- The bound on the recursion: the number of list elements to place. -/
def mergeFuel (ls : List (List Nat)) : Nat := (ls.map List.length).sum

/-- The remaining lists at which the compiler's `merge-lists` gives up
    (`define-class-mop.dylan:922-951`), if it does. -/
def stuckLists : Nat → List (List Nat) → Option (List (List Nat))
  | 0, _ => none
  | n + 1, ls =>
    if ls.all List.isEmpty then none
    else match nextC3 ls with
      | some next => stuckLists n (ls.map (removeNext next))
      | none => some ls

/-- The inner loop of the search for witnesses, from list number `j` on
    (`define-class-mop.dylan:960-967`). -/
def witnessInner (cand : Nat) (constraints : List Nat) (i : Nat) :
    List (List Nat) → Nat → Option (Nat × Nat × Nat × Nat)
  | [], _ => none
  | [] :: ls, j => witnessInner cand constraints i ls (j + 1)
  | (h :: tl) :: ls, j =>
    if h ∈ constraints ∧ cand ∈ tl then some (cand, h, i, j)
    else witnessInner cand constraints i ls (j + 1)

/-- The outer loop of the search for two classes and two witnesses, from list number `i` on
    (`define-class-mop.dylan:954-971`). -/
def witnessOuter : List (List Nat) → Nat → Option (Nat × Nat × Nat × Nat)
  | [], _ => none
  | [] :: ls, i => witnessOuter ls (i + 1)
  | (cand :: constraints) :: ls, i =>
    match witnessInner cand constraints i ls (i + 1) with
    | some r => some r
    | none => witnessOuter ls (i + 1)

/-- What the compiler does with the list for a class `c` (`define-class-mop.dylan:917-990`). -/
inductive Report where
  /-- The list is consistent. -/
  | fine
  /-- The note `<inconsistent-CPL>`: in the list of the first class the first witness precedes the
      second, in the list of the second class it is the other way around. -/
  | note (class1 class2 witness1 witness2 : Nat)
  /-- `heads[#f]`, or an index out of range: the compiler itself fails. -/
  | crash
  deriving DecidableEq, Repr

/-- The report on a class `c` with direct superclasses `sups` and their lists `cpls`
    (`define-class-mop.dylan:952-982`). -/
def report (c : Nat) (sups : List Nat) (cpls : List (List Nat)) : Report :=
  let ls := cpls ++ [sups]
  match stuckLists (mergeFuel ls + 1) ls with
  | none => .fine
  | some rest =>
    match witnessOuter rest 0 with
    | none => .crash
    | some (w1, w2, i, j) =>
      match (sups ++ [c])[i]?, (sups ++ [c])[j]? with
      | some c1, some c2 => .note c1 c2 w1 w2
      | _, _ => .crash

/-- `unconstrained-class` (`class-dynamic.dylan:634-651`). -/
def unconstrained (ls : List (List Nat)) (s : Nat) : Option Nat :=
  if ls.any (fun l => decide (l.head? = some s)) &&
     ls.all (fun l => decide (l.head? = some s) || !decide (s ∈ l.tail)) then some s else none

/-- `any?(unconstrained-class-in-superclasses, partial-cpl)` (`class-dynamic.dylan:653-658`). -/
def nextOld (supers : Nat → List Nat) (partialCpl : List Nat) (ls : List (List Nat)) : Option Nat :=
  partialCpl.findSome? (fun c => (supers c).findSome? (unconstrained ls))

/-- `merge-lists` of `compute-implementation-class-precedence-list-old`
    (`class-dynamic.dylan:628-671`). -/
def mergeOld (supers : Nat → List Nat) : Nat → List Nat → List (List Nat) → Except Err (List Nat)
  | 0, partialCpl, ls =>
    if ls.all List.isEmpty then .ok partialCpl.reverse else .error .fuel
  | n + 1, partialCpl, ls =>
    if ls.all List.isEmpty then .ok partialCpl.reverse
    else match nextOld supers partialCpl ls with
      | some next => mergeOld supers n (next :: partialCpl) (ls.map (removeNext next))
      | none => .error .inconsistent

/-- `compute-implementation-class-precedence-list` (`class-dynamic.dylan:566-617`) for a class `c`
    with the direct superclasses `sups`, whose precedence lists are `cpls`.  The older algorithm is
    run as well (`624-676`, where `add` puts the list of direct superclasses first); an error in it
    is an error of class creation, a difference between the two results is only signalled. -/
def computeCpl (supers : Nat → List Nat) (c : Nat) (sups : List Nat) (cpls : List (List Nat)) :
    Except Err (List Nat) :=
  let ls := cpls ++ [sups]
  match mergeC3 (mergeFuel ls) [c] ls with
  | .error e => .error e
  | .ok c3 =>
    match mergeOld (fun x => if x = c then sups else supers x) (mergeFuel ls) [c] (sups :: cpls) with
    | .error e => .error e
    | .ok _ => .ok c3

/-! ### Class records -/

/-- The part of an implementation class that does not change once the class exists.
    `rcpl` is `class-rcpl-vector` (`none` is `#f`), `pos` is `class-rcpl-position`, `mask` the
    subtype mask of the class's instances, `bit` is `class-subtype-bit`. -/
structure Fixed where
  supers : List Nat
  primary : Bool
  bit : Nat
  rcpl : List (Option Nat)
  pos : Nat
  mask : Nat
  deriving DecidableEq, Repr

/-- The `instance?` code installed in a class (`class.dylan:597-619`,
    `define-class-mop.dylan:28-60`). -/
inductive Iep where
  | object | masked | general | small | large
  deriving DecidableEq, Repr

/-- A class: the fixed part, `class-rcpl-other-positions`, the compiler's
    `^class-incremental-rcpl-positions`, the installed `instance?` code, `class-known-joint`. -/
structure Cls where
  fx : Fixed
  others : List Nat
  stat : List Nat
  iep : Iep
  joint : List Nat
  deriving DecidableEq, Repr

abbrev World := List Cls

/-- `$min-rcpl-size` (`class.dylan:775`, `define-class.dylan:196`). -/
def minRcplSize : Nat := 6

/-- The loop of `all-superclasses` (`boot.dylan:1335-1343`): `n` entries of the vector are read
    upwards, consing, so that the result is the precedence list. -/
def readUp : List (Option Nat) → Nat → List Nat → Except Err (List Nat)
  | _, 0, acc => .ok acc
  | [], _ + 1, acc => .ok acc
  | none :: _, _ + 1, _ => .error .notClass
  | some s :: v, n + 1, acc => readUp v n (s :: acc)

/-- `all-superclasses` of a class record (`boot.dylan:1335-1343`). -/
def Fixed.allSuperclasses (f : Fixed) : Except Err (List Nat) := readUp f.rcpl (f.pos + 1) []

/-- `all-superclasses(c)`: the precedence list of a class. -/
def allSuperclasses (w : World) (c : Nat) : Except Err (List Nat) :=
  match w[c]? with
  | none => .error .noClass
  | some r => r.fx.allSuperclasses

/-- The vector written by `for (pos from self-pos to 0 by -1, super in cpl) rcpl[pos] := ...`, over
    a vector of `max(self-pos + 1, $min-rcpl-size)` times `#f` (`class-dynamic.dylan:710-716`,
    `define-class.dylan:200-215`). -/
def rcplOf (cpl : List Nat) : List (Option Nat) :=
  (cpl.reverse.map some) ++ List.replicate (minRcplSize - cpl.length) none

/-! ### The tests -/

/-- The loop of `rcpl-isubclass?` over the other positions (`class.dylan:793-811`). -/
def posLoop (rcpl : List (Option Nat)) (sup : Nat) : List Nat → Except Err Bool
  | [] => .ok false
  | p :: ps =>
    if p < rcpl.length then
      match rcpl[p]? with
      | none => .error .bounds
      | some e => if e = some sup then .ok true else posLoop rcpl sup ps
    else .ok false

/-- `rcpl-isubclass?` (`class.dylan:778-815`). -/
def rcplIsubclass (isub : Fixed) (sub : Nat) (isup : Cls) (sup : Nat) : Except Err Bool :=
  if sub = sup then .ok true
  else if isup.fx.pos ≥ isub.rcpl.length then .ok false
  else match isub.rcpl[isup.fx.pos]? with
    | none => .error .bounds
    | some e => if e = some sup then .ok true else posLoop isub.rcpl sup isup.others

/-- `subclass?` (`class.dylan:902-927`) on complete classes. -/
def subclass (w : World) (x y : Nat) : Except Err Bool :=
  match w[x]?, w[y]? with
  | some rx, some ry => rcplIsubclass rx.fx x ry y
  | _, _ => .error .noClass

/-- `class-instance?-rcpl-single-large` (`class.dylan:838-854`), for an object of class `sub`. -/
def instLarge (isub : Fixed) (sub : Nat) (icls : Cls) (cls : Nat) : Except Err Bool :=
  if cls = sub then .ok true
  else if icls.fx.pos < isub.rcpl.length then
    match isub.rcpl[icls.fx.pos]? with
    | none => .error .bounds
    | some e => .ok (decide (e = some cls))
  else .ok false

/-- `class-instance?-rcpl-single-small` (`class.dylan:856-870`): no bounds check. -/
def instSmall (isub : Fixed) (sub : Nat) (icls : Cls) (cls : Nat) : Except Err Bool :=
  if sub = cls then .ok true
  else match isub.rcpl[icls.fx.pos]? with
    | none => .error .bounds
    | some e => .ok (decide (e = some cls))

/-- `masked-class-instance?` (`class.dylan:876-880`). -/
def instMasked (isub : Fixed) (icls : Cls) : Bool := decide (isub.mask &&& icls.fx.bit ≠ 0)

/-- `instance?(obj, cls)` for an object whose class is `k`: the code installed in `cls` is called
    (`class.dylan:817-880`). -/
def instanceP (w : World) (k cls : Nat) : Except Err Bool :=
  match w[k]?, w[cls]? with
  | some rk, some rc =>
    match rc.iep with
    | .object => .ok true
    | .masked => .ok (instMasked rk.fx rc)
    | .general => rcplIsubclass rk.fx k rc cls
    | .small => instSmall rk.fx k rc cls
    | .large => instLarge rk.fx k rc cls
  | _, _ => .error .noClass

/-! ### Position data -/

/-- `initialize-class-instance?-iep` (`class.dylan:597-619`); the position is never negative in a
    complete class. -/
def chooseIep (fx : Fixed) (others : List Nat) : Iep :=
  if fx.bit ≠ 0 then .masked
  else if others.length > 0 then .general
  else if fx.pos < minRcplSize then .small
  else .large

/-- The class with its `instance?` code chosen anew. -/
def Cls.initIep (r : Cls) : Cls := { r with iep := chooseIep r.fx r.others }

/-- `iclass-rcpl-position-known?`, `rcpl-position-known?` (`class.dylan:633-639`). -/
def known (p : Nat) (r : Cls) : Bool := decide (p = r.fx.pos) || decide (p ∈ r.others)

/-- The local methods `foo` and `bar` of `augment-iclass-rcpl-position-data`
    (`class.dylan:658-681`): the elements below the new one are copied, then the new one and the
    others.  (`bar` is called with `j = i + 1`, so its odd argument `j` for `i` is `i + 1`.) -/
def insertPos (p : Nat) : List Nat → List Nat
  | [] => [p]
  | e :: es => if e < p then e :: insertPos p es else p :: e :: es

/-- `augment-iclass-rcpl-position-data` (`class.dylan:643-698`).  The first position is known in a
    complete class, so the branch for `-1` is left out. -/
def augment (r : Cls) (p : Nat) : Except Err Cls :=
  if known p r then .ok r
  else if p < r.fx.pos then .error .assertion
  else .ok { r with others := insertPos p r.others }.initIep

/-- The same on a class of the world. -/
def augmentAt (w : World) (s p : Nat) : Except Err World :=
  match w[s]? with
  | none => .error .noClass
  | some r =>
    match augment r p with
    | .error e => .error e
    | .ok r' => .ok (w.set s r')

/-- `augment-superior-rcpls` (`class-dynamic.dylan:728-738`): positions from `n` down to 1 of the
    new class's vector, the class itself and `<object>` excepted. -/
def augmentSuperior (c : Nat) (rcpl : List (Option Nat)) : Nat → World → Except Err World
  | 0, w => .ok w
  | n + 1, w =>
    match rcpl[n + 1]? with
    | none => .error .bounds
    | some none => .error .notClass
    | some (some s) =>
      if s = c ∨ s = 0 then augmentSuperior c rcpl n w
      else match augmentAt w s (n + 1) with
        | .error e => .error e
        | .ok w' => augmentSuperior c rcpl n w'

/-! ### Run-time class creation -/

/-- The loop over the proper superclasses that looks for unrelated primary classes
    (`class-dynamic.dylan:685-708`).  The second `subiclass?` call of the code is given an
    implementation class where the class is meant, which is never `==` to an entry of a vector, so
    it never answers true; whether it is rejected as a type error or answers `#f`, an error
    follows. -/
def primaryLoop (w : World) : List Nat → Option Nat → Except Err Unit
  | [], _ => .ok ()
  | s :: l, fp =>
    match w[s]? with
    | none => .error .noClass
    | some r =>
      if r.fx.primary then
        match fp with
        | none => primaryLoop w l (some s)
        | some f =>
          match subclass w f s with
          | .error e => .error e
          | .ok true => primaryLoop w l (some f)
          | .ok false => .error .primaries
      else primaryLoop w l fp

/-- The subtype mask accumulated by the same loop (`class-dynamic.dylan:686-693`). -/
def maskLoop (w : World) : List Nat → Nat → Nat
  | [], m => m
  | s :: l, m => maskLoop w l (m ||| ((w[s]?).elim 0 (fun r => r.fx.mask)))

/-- `map(all-iclass-superclasses, direct superclasses)` (`class-dynamic.dylan:606-609`). -/
def superCpls (w : World) : List Nat → Except Err (List (List Nat))
  | [] => .ok []
  | s :: l =>
    match allSuperclasses w s with
    | .error e => .error e
    | .ok cpl =>
      match superCpls w l with
      | .error e => .error e
      | .ok cpls => .ok (cpl :: cpls)

/-- `direct-superclasses(c)`. -/
def supersOf (w : World) (c : Nat) : List Nat := (w[c]?).elim [] (fun r => r.fx.supers)

/-- A class to be defined: its direct superclasses, whether it is primary, and its subtype bit
    (0 except for some classes of the Dylan library). -/
structure Def where
  supers : List Nat
  primary : Bool
  bit : Nat := 0
  deriving DecidableEq, Repr

/-- The record of a new class with the given precedence list. -/
def newFixed (w : World) (d : Def) (cpl : List Nat) (bit : Nat) : Fixed where
  supers := d.supers
  primary := d.primary
  bit := bit
  rcpl := rcplOf cpl
  pos := cpl.length - 1
  mask := maskLoop w cpl.tail bit

/-- A class without position data of later classes. -/
def freshCls (fx : Fixed) : Cls := ⟨fx, [], [], chooseIep fx [], []⟩

/-- `make(<class>, superclasses: ...)`: `compute-cpl-rcpl-stuff` (`class-dynamic.dylan:679-722`)
    and `install-implementation-class` (`252-268`).  The new class is the next number.  A class
    made at run time has subtype bit 0. -/
def makeClass (w : World) (d : Def) : Except Err World :=
  match superCpls w d.supers with
  | .error e => .error e
  | .ok cpls =>
    match computeCpl (supersOf w) w.length d.supers cpls with
    | .error e => .error e
    | .ok cpl =>
      match primaryLoop w cpl.tail none with
      | .error e => .error e
      | .ok () =>
        let fx := newFixed w d cpl 0
        augmentSuperior w.length fx.rcpl fx.pos (w ++ [freshCls fx])

/-! ### Libraries -/

/-- `add-position-sorted` (`define-class.dylan:218-242`). -/
def addPositionSorted (p : Nat) : List Nat → List Nat
  | [] => [p]
  | e :: es => if p = e then e :: es else if p > e then e :: addPositionSorted p es else p :: e :: es

/-- `^augment-rcpl-position-data` (`define-class.dylan:245-251`). -/
def augmentStat (p : Nat) (r : Cls) : Cls :=
  if p = r.fx.pos then r else { r with stat := addPositionSorted p r.stat }

/-- The loop of `^setup-cpl-rcpl` (`define-class.dylan:207-214`) over the positions `n` down to 1
    below the class itself: superclasses of the same library (numbers from `lib` on) get the
    position. -/
def setupRcpl (lib : Nat) (rcpl : List (Option Nat)) : Nat → World → Except Err World
  | 0, w => .ok w
  | n + 1, w =>
    match rcpl[n + 1]? with
    | none => .error .bounds
    | some none => .error .notClass
    | some (some s) => setupRcpl lib rcpl n (if lib ≤ s then w.modify s (augmentStat (n + 1)) else w)

/-- `^least-primary-superclass` (`classes.dylan:85-94`) of a precedence list. -/
def leastPrimary (w : World) (cpl : List Nat) : Option Nat :=
  cpl.find? (fun s => (w[s]?).elim false (fun r => r.fx.primary))

/-- `^subtype?` on classes (`classes.dylan:110-113`). -/
def statSubtype (w : World) (a b : Nat) : Bool :=
  match allSuperclasses w a with
  | .ok cpl => decide (b ∈ cpl)
  | .error _ => false

/-- The pairwise test of `^check-inheritance` (`define-class-mop.dylan:889-912`). -/
def pairwiseRelated (w : World) : List Nat → Bool
  | [] => true
  | a :: l => l.all (fun b => statSubtype w b a || statSubtype w a b) && pairwiseRelated w l

/-- One class of a library at compile time (`define-class.dylan:100-193`): precedence list
    (`define-class-mop.dylan:918-990`), position data, inheritance check. -/
def compileClass (lib : Nat) (w : World) (d : Def) : Except Err World :=
  match superCpls w d.supers with
  | .error e => .error e
  | .ok cpls =>
    let ls := cpls ++ [d.supers]
    match mergeC3 (mergeFuel ls) [w.length] ls with
    | .error e => .error e
    | .ok cpl =>
      if pairwiseRelated w (cpls.filterMap (leastPrimary w)) then
        let fx := newFixed w d cpl d.bit
        setupRcpl lib fx.rcpl (fx.pos - 1) (w ++ [freshCls fx])
      else .error .primaries

/-- All classes of a library, in order. -/
def compileClasses (lib : Nat) : World → List Def → Except Err World
  | w, [] => .ok w
  | w, d :: ds =>
    match compileClass lib w d with
    | .error e => .error e
    | .ok w' => compileClasses lib w' ds

/-- The compiled class in the image: other positions from the incremental ones
    (`define-class.dylan:335-339`), `instance?` code as chosen by `^instance?-function`
    (`define-class-mop.dylan:28-60`; the special function for sealed classes without subclasses is
    left out). -/
def finishCls (r : Cls) : Cls :=
  { r with others := r.stat }.initIep

/-- `finishCls` on the classes of the library. -/
def finishAll (lib : Nat) (w : World) : World := w.mapIdx (fun i r => if lib ≤ i then finishCls r else r)

/-- The positions of superclass `sup` noted for load time (`define-class.dylan:340-355`) while
    looking at one class: `cpl` is the rest of its precedence list, with the position of its head.
    The loop stops at position 0. -/
def fixupsOf (lib : Nat) (w : World) (sup : Nat) : List Nat → Nat → List Nat → List Nat
  | [], _, acc => acc
  | _ :: _, 0, acc => acc
  | s :: l, p + 1, acc =>
    let acc' :=
      if s = sup ∧ s < lib then
        match w[s]? with
        | none => acc
        | some r => if p + 1 ≠ r.fx.pos ∧ p + 1 ∉ r.stat then addPositionSorted (p + 1) acc else acc
      else acc
    fixupsOf lib w sup l p acc'

/-- The entry of the table of load-time positions for class `sup`, after looking at the classes of
    the library (`form-mapper(ld, fubar)`, `define-class.dylan:390`). -/
def fixups (lib : Nat) (w : World) (sup : Nat) : List Nat → List Nat → List Nat
  | [], acc => acc
  | c :: cs, acc =>
    match allSuperclasses w c with
    | .error _ => fixups lib w sup cs acc
    | .ok cpl => fixups lib w sup cs (fixupsOf lib w sup cpl.tail (cpl.length - 2) acc)

/-- The number of positions that are not known (`class.dylan:706-717`). -/
def countUnknown (r : Cls) (ps : List Nat) : Nat := (ps.filter (fun p => !known p r)).length

/-- The turns of the merge loop of `augment-rcpl-position-data-multiple`
    (`class.dylan:725-756`) with old element `o`: `done` is what is written when the new positions
    are used up, `k` goes on with the next old element. -/
def copyBelow (base o : Nat) (k : List Nat → List Nat) (done : List Nat) : List Nat → List Nat
  | [] => done
  | p :: ps =>
    if p < o then
      if p = base then copyBelow base o k done ps else p :: copyBelow base o k done ps
    else o :: k (if o = p then ps else p :: ps)

/-- The merge loop of `augment-rcpl-position-data-multiple` (`class.dylan:725-756`), as the list of
    values written to the new vector at 0, 1, 2, and so on; arguments are the old and the new
    positions. -/
def mergePos (base : Nat) : List Nat → List Nat → List Nat
  | [], ps => ps
  | o :: old, ps => copyBelow base o (mergePos base old) (o :: old) ps

/-- `augment-rcpl-position-data-multiple` (`class.dylan:701-759`).  The new vector has room for the
    old positions and the unknown ones; writing more is an error, writing fewer would leave `#f` in
    it, which is an error once it is read. -/
def augmentMultiple (r : Cls) (ps : List Nat) : Except Err Cls :=
  let ninc := countUnknown r ps
  if ninc > 0 then
    let out := mergePos r.fx.pos r.others ps
    if out.length > r.others.length + ninc then .error .bounds
    else if out.length < r.others.length + ninc then .error .notClass
    else .ok { r with others := out }.initIep
  else .ok r

/-- The calls of `augment-rcpl-position-data-multiple` when the library is loaded
    (`define-class.dylan:405-415`), for the classes below `n`. -/
def applyFixups (fix : Nat → List Nat) : Nat → World → Except Err World
  | 0, w => .ok w
  | n + 1, w =>
    match applyFixups fix n w with
    | .error e => .error e
    | .ok w' =>
      match w'[n]? with
      | none => .error .noClass
      | some r =>
        match augmentMultiple r (fix n) with
        | .error e => .error e
        | .ok r' => .ok (w'.set n r')

/-- A table of joint classes. -/
abbrev JointTable := Nat → List Nat

/-- `element(joint-table, c) := l`. -/
def JointTable.put (t : JointTable) (c : Nat) (l : List Nat) : JointTable :=
  fun x => if x = c then l else t x

/-- The inner loop over `c2` (`define-class.dylan:362-383`). -/
def jointInner (lib : Nat) (w : World) (c1 : Nat) : List Nat → JointTable → JointTable
  | [], t => t
  | c2 :: l, t =>
    jointInner lib w c1 l
      (if statSubtype w c1 c2 || decide (c2 ∈ t c1) || decide (c1 ∈ t c2) then t
       else if lib ≤ c1 ∨ c2 < lib then t.put c1 (c2 :: t c1)
       else t.put c2 (c1 :: t c2))

/-- The outer loop over the proper superclasses (`define-class.dylan:357-361`). -/
def jointOuter (lib : Nat) (w : World) : List Nat → JointTable → JointTable
  | [], t => t
  | c1 :: l, t => jointOuter lib w l (jointInner lib w c1 l t)

/-- The joint table after looking at the given classes. -/
def jointAll (lib : Nat) (w : World) : List Nat → JointTable → JointTable
  | [], t => t
  | c :: cs, t =>
    match allSuperclasses w c with
    | .error _ => jointAll lib w cs t
    | .ok cpl => jointAll lib w cs (jointOuter lib w cpl.tail t)

/-- `augment-class-known-joint(c1, vec)` (`class.dylan:962-977`): the new classes, consed. -/
def newJoint (w : World) (c1 : Nat) (kn : List Nat) : List Nat → List Nat → List Nat
  | [], acc => acc
  | c2 :: l, acc =>
    newJoint w c1 kn l
      (if !((w[c2]?).elim false (fun r => decide (c1 ∈ r.joint))) && !decide (c2 ∈ kn)
       then c2 :: acc else acc)

/-- The class with more joint classes. -/
def addJoint (new : List Nat) (r : Cls) : Cls := { r with joint := r.joint ++ new }

/-- The class with its joint classes set. -/
def setJoint (l : List Nat) (r : Cls) : Cls := { r with joint := l }

/-- The updates of the joint sets (`define-class.dylan:416-427`), for the classes below `n`: those
    of the library are set in the image, the others are augmented at load time. -/
def applyJoint (lib : Nat) (t : JointTable) : Nat → World → World
  | 0, w => w
  | n + 1, w =>
    let w' := applyJoint lib t n w
    w'.modify n (fun r =>
      if lib ≤ n then setJoint (t n) r else addJoint (newJoint w' n r.joint (t n) []) r)

/-- Compiling and loading a library (`define-class.dylan:321-430`). -/
def loadLibrary (w : World) (ds : List Def) : Except Err World :=
  let lib := w.length
  match compileClasses lib w ds with
  | .error e => .error e
  | .ok w1 =>
    let mine := (List.range (w1.length - lib)).map (lib + ·)
    let fix := fun sup => fixups lib w1 sup mine []
    let t := jointAll lib w1 mine (fun _ => [])
    match applyFixups fix lib (finishAll lib w1) with
    | .error e => .error e
    | .ok w2 => .ok (applyJoint lib t w2.length w2)

/-! ### Histories -/

/-- The world with `<object>` only. -/
def objectWorld : World :=
  [⟨⟨[], false, 0, rcplOf [0], 0, 0⟩, [], [], .object, []⟩]

/-- An operation: run-time class creation, or loading of a library. -/
inductive Op where
  | make (d : Def)
  | load (ds : List Def)
  deriving DecidableEq, Repr

/-- The outcome of one operation. -/
def step (w : World) : Op → Except Err World
  | .make d => makeClass w d
  | .load ds => loadLibrary w ds

/-- A history: an operation that signals an error leaves the world as it was. -/
def run : World → List Op → World
  | w, [] => w
  | w, op :: ops =>
    match step w op with
    | .ok w' => run w' ops
    | .error _ => run w ops

end Verif.Class
