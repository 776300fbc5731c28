/-
Model of the functions on sequences and collections in /repo/sources/dylan: `collection.dylan`,
`sequence.dylan`, `mutable-collection.dylan`, `mutable-sequence.dylan`.

A sequence is its elements, its kind and, for a deque, the index of its first element.  A state of an
iteration is a number: the index of the element for vectors (and for a deque the index in its
representation), and for a list the number of pairs before the one that is the state.  Simplifications:
classes other than these kinds are left out; integers are unbounded; functions given as arguments are
total and change nothing; all elements may be stored in all sequences.
-/
namespace Verif.Iter

variable {α β : Type}

/-- Kinds of sequences: they differ in their iteration. -/
inductive Kind where
  | list
  | vector
  | deque
  deriving DecidableEq

/-- A sequence. -/
structure S (α : Type) where
  kind : Kind
  items : List α
  first : Nat
  deriving DecidableEq

/-- What a call does: it returns, it signals an error because of `start:`, `end:` or an index, it reads or
    writes outside of a sequence (vectors do this without checking), it calls a function with an argument
    of a wrong type, or it goes on for ever. -/
inductive Res (β : Type) where
  | ok (b : β)
  | range
  | outside
  | typeError
  | loop
  deriving DecidableEq

/-! ### The iteration protocol -/

/-- The initial state (`list.dylan:690-700`, `vector.dylan:611-627`, `deque.dylan:586-600`). -/
def initS (s : S α) : Nat :=
  match s.kind with
  | .deque => s.first
  | _ => 0

/-- The limit (the same places). -/
def limitS (s : S α) : Nat := initS s + s.items.length

/-- `list-next-state` (`list.dylan:660-663`; the tail of the empty list is the empty list) and
    `sequence-next-state` (`sequence.dylan:744-747`). -/
def nextS (s : S α) (st : Nat) : Nat :=
  match s.kind with
  | .list => if st < s.items.length then st + 1 else st
  | _ => st + 1

/-- `list-finished-state?` (`list.dylan:665-668`), `sequence-finished-state?` (`sequence.dylan:754-758`). -/
def finishedS (s : S α) (st limit : Nat) : Bool :=
  match s.kind with
  | .list => decide (s.items.length ≤ st)
  | _ => decide (st = limit)

/-- The current element (`list.dylan:681-684`, `vector.dylan:599-603`, `deque.dylan:571-574`); `none`: there is
    none. -/
def curS (s : S α) (st : Nat) : Option α := if st < initS s then none else s.items[st - initS s]?

/-- Storing the current element (`list.dylan:686-689`, `vector.dylan:605-609`, `deque.dylan:576-580`); `none`: there
    is none. -/
def setS (s : S α) (st : Nat) (v : α) : Option (S α) :=
  if st < initS s ∨ s.items.length ≤ st - initS s then none else some { s with items := s.items.set (st - initS s) v }

/-- `next-state`, `n` times: `for (index from 0 below n, state = ... then next-state(s, state))`. -/
def skipS (s : S α) : Nat → Nat → Nat
  | 0, st => st
  | n + 1, st => skipS s n (nextS s st)

/-- A new sequence like another one, filled: `make(type-for-copy(s), size: n, fill: v)`.  `off` is the index of
    the first element if it is a deque. -/
def fresh (off : Nat) (s : S α) (n : Nat) (v : α) : S α := ⟨s.kind, List.replicate n v, off⟩

/-! ### fill! and replace-elements! -/

/-- `fill!` for collections (`mutable-collection.dylan:82-93`), from a state on. -/
def fillAll (v : α) (limit : Nat) : Nat → S α → Nat → Res (S α)
  | 0, _, _ => .loop
  | k + 1, s, st =>
    if finishedS s st limit then .ok s
    else
      match setS s st v with
      | none => .outside
      | some s' => fillAll v limit k s' (nextS s' st)

/-- The first loop of `fill!` for sequences (`mutable-sequence.dylan:170-172`): the state and the index. -/
def fillSkip (s : S α) (start : Int) (limit : Nat) : Nat → Nat → Int → Res (Nat × Int)
  | 0, _, _ => .loop
  | k + 1, st, index =>
    if start = index ∨ finishedS s st limit then .ok (st, index)
    else fillSkip s start limit k (nextS s st) (index + 1)

/-- The third loop of `fill!` (`mutable-sequence.dylan:186-190`): the sequence and the index. -/
def fillTo (v : α) (last : Int) (limit : Nat) : Nat → S α → Nat → Int → Res (S α × Int)
  | 0, _, _, _ => .loop
  | k + 1, s, st, index =>
    if index = last ∨ finishedS s st limit then .ok (s, index)
    else
      match setS s st v with
      | none => .outside
      | some s' => fillTo v last limit k s' (nextS s' st) (index + 1)

/-- The cases after the first loop (`mutable-sequence.dylan:174-195`). -/
def fillRest (fuel : Nat) (s : S α) (v : α) (start : Int) (last : Option Int) : Nat × Int → Res (S α)
  | (st, index) =>
    if index ≠ start then .range
    else
      match last with
      | none => fillAll v (limitS s) fuel s st
      | some last =>
        if index ≤ last then
          match fillTo v last (limitS s) fuel s st index with
          | .ok (s', index') => if index' = last then .ok s' else .range
          | .range => .range | .outside => .outside | .typeError => .typeError | .loop => .loop
        else .range

/-- `fill!` for sequences (`mutable-sequence.dylan:163-201`). -/
def fill (fuel : Nat) (s : S α) (v : α) (start : Int) (last : Option Int) : Res (S α) :=
  if start = 0 ∧ last = none then fillAll v (limitS s) fuel s (initS s)
  else
    match fillSkip s start (limitS s) fuel (initS s) 0 with
    | .ok r => fillRest fuel s v start last r
    | .range => .range | .outside => .outside | .typeError => .typeError | .loop => .loop

/-- `replace-elements!` (`mutable-collection.dylan:48-75`), from a state on; `count` is `none` for `#f`. -/
def replaceLoop (pred : α → Bool) (new : α → α) (limit : Nat) : Nat → S α → Nat → Option Int → Res (S α)
  | 0, _, _, _ => .loop
  | k + 1, s, st, count =>
    if count = some 0 ∨ finishedS s st limit then .ok s
    else
      match curS s st with
      | none => .outside
      | some e =>
        if pred e then
          match setS s st (new e) with
          | none => .outside
          | some s' => replaceLoop pred new limit k s' (nextS s' st) (count.map (· - 1))
        else replaceLoop pred new limit k s (nextS s st) count

/-- `replace-elements!` (`mutable-collection.dylan:48-75`). -/
def replaceElements (fuel : Nat) (s : S α) (pred : α → Bool) (new : α → α) (count : Option Int) : Res (S α) :=
  replaceLoop pred new (limitS s) fuel s (initS s) count

/-! ### copy-sequence and replace-subsequence! -/

/-- `check-start-compute-end` (`sequence.dylan:498-511`): `none` is an error. -/
def checkBounds (n : Nat) (start : Int) (last : Option Int) : Option Int :=
  let last := last.getD n
  if start < 0 then none else if (n : Int) < last then none else if last < start then none else some last

/-- Copy `n` elements from one sequence to another (`sequence.dylan:527-533`, `mutable-sequence.dylan:120-126,138-145`): the
    target, its state and the state of the source. -/
def copyN (src : S α) : Nat → S α → Nat → Nat → Res (S α × Nat × Nat)
  | 0, t, st, ost => .ok (t, st, ost)
  | n + 1, t, st, ost =>
    match curS src ost with
    | none => .outside
    | some a =>
      match setS t st a with
      | none => .outside
      | some t' => copyN src n t' (nextS t' st) (nextS src ost)

/-- Store the elements of a list from a state on (`mutable-sequence.dylan:98-101,112-115,128-130`). -/
def storeAll : List α → S α → Nat → Res (S α × Nat)
  | [], t, st => .ok (t, st)
  | a :: l, t, st =>
    match setS t st a with
    | none => .outside
    | some t' => storeAll l t' (nextS t' st)

/-- `copy-sequence` (`sequence.dylan:514-541`). -/
def copySequence (off : Nat) (s : S α) (start : Int) (last : Option Int) : Res (S α) :=
  match checkBounds s.items.length start last with
  | none => .range
  | some last =>
    if start = last then .ok ⟨s.kind, [], off⟩
    else
      match s.items[0]? with
      | none => .range
      | some v =>
        let r := fresh off s (last - start).toNat v
        match copyN s (last - start).toNat r (initS r) (skipS s start.toNat (initS s)) with
        | .ok (r', _, _) => .ok r'
        | .range => .range | .outside => .outside | .typeError => .typeError | .loop => .loop

/-- The rest of the target, copied after the inserted elements (`mutable-sequence.dylan:131-146`). -/
def replaceTail (target : S α) (start last : Nat) (new : S α) (st ost : Nat) : Res (S α) :=
  if last = target.items.length then .ok new
  else
    match copyN target (target.items.length - last) new st (skipS target (last - start) ost) with
    | .ok (new', _, _) => .ok new'
    | .range => .range | .outside => .outside | .typeError => .typeError | .loop => .loop

/-- The inserted elements and the rest (`mutable-sequence.dylan:127-146`). -/
def replaceMid (target : S α) (insert : List α) (start last : Nat) : Res (S α × Nat × Nat) → Res (S α)
  | .ok (new, st, ost) =>
      (match storeAll insert new st with
       | .ok (new', st') => replaceTail target start last new' st' ost
       | .range => .range | .outside => .outside | .typeError => .typeError | .loop => .loop)
  | .range => .range | .outside => .outside | .typeError => .typeError | .loop => .loop

/-- `replace-subsequence!` for mutable sequences (`mutable-sequence.dylan:88-156`); `blank` fills a new sequence. -/
def replaceSubsequence (off : Nat) (blank : α) (target : S α) (insert : List α) (start : Int) (last : Option Int) : Res (S α) :=
  match checkBounds target.items.length start last with
  | none => .range
  | some last =>
    if last - start = insert.length then
      match storeAll insert target (skipS target start.toNat (initS target)) with
      | .ok (t, _) => .ok t
      | .range => .range | .outside => .outside | .typeError => .typeError | .loop => .loop
    else
      let new := fresh off target ((target.items.length : Int) - (last - start) + insert.length).toNat blank
      if start = 0 ∧ last = target.items.length then
        match storeAll insert new (initS new) with
        | .ok (t, _) => .ok t
        | .range => .range | .outside => .outside | .typeError => .typeError | .loop => .loop
      else replaceMid target insert start.toNat last.toNat (copyN target start.toNat new (initS new) (initS target))

/-! ### subsequence-position and = -/

/-- The search of `subsequence-position` (`sequence.dylan:636-661`). -/
def search (test : α → β → Bool) (big : S α) (pat : S β) : Nat → Nat → Nat → Nat → Nat → Int → Res (Option Nat)
  | 0, _, _, _, _, _ => .loop
  | k + 1, index, ist, bst, pst, count =>
    if finishedS pat pst (limitS pat) then
      if count = 1 then .ok (some index)
      else search test big pat k (index + 1) (nextS big ist) (nextS big ist) (initS pat) (count - 1)
    else if finishedS big bst (limitS big) then .ok none
    else
      match curS big bst, curS pat pst with
      | some a, some b =>
        if test a b then search test big pat k index ist (nextS big bst) (nextS pat pst) count
        else search test big pat k (index + 1) (nextS big ist) (nextS big ist) (initS pat) count
      | _, _ => .outside

/-- `subsequence-position` (`sequence.dylan:626-665`). -/
def subsequencePosition (test : α → β → Bool) (fuel : Nat) (big : S α) (pat : S β) (count : Int) : Res (Option Int) :=
  if pat.items = [] then
    if count > big.items.length then .ok (some big.items.length) else .ok (some (count - 1))
  else
    match search test big pat fuel 0 (initS big) (initS big) (initS pat) count with
    | .ok r => .ok (r.map (fun n : Nat => (n : Int)))
    | .range => .range | .outside => .outside | .typeError => .typeError | .loop => .loop

/-- `=` for two sequences (`collection.dylan:957-972`). -/
def equalLoop (eq : α → β → Bool) (s : S α) (t : S β) : Nat → Nat → Nat → Res Bool
  | 0, _, _ => .loop
  | k + 1, s1, s2 =>
    if finishedS s s1 (limitS s) then .ok (finishedS t s2 (limitS t))
    else if finishedS t s2 (limitS t) then .ok false
    else
      match curS s s1, curS t s2 with
      | some a, some b => if eq a b then equalLoop eq s t k (nextS s s1) (nextS t s2) else .ok false
      | _, _ => .outside

/-- `=` for two sequences (`collection.dylan:957-972`). -/
def equalSeqs (eq : α → β → Bool) (fuel : Nat) (s : S α) (t : S β) : Res Bool := equalLoop eq s t fuel (initS s) (initS t)

/-- `=` for two arrays (`collection.dylan:976-985`): the loop. -/
def equalZip (eq : α → β → Bool) : List α → List β → Bool
  | a :: l, b :: m => if eq a b then equalZip eq l m else false
  | _, _ => true

/-- `=` for two arrays (`collection.dylan:976-985`). -/
def equalArrays (eq : α → β → Bool) (l : List α) (m : List β) : Bool := if l.length ≠ m.length then false else equalZip eq l m

/-- A table, as its keys and elements in the order of the iteration. -/
abbrev Assoc (κ α : Type) := List (κ × α)

/-- `element(table, key, default: not-found())`. -/
def assoc {κ : Type} [DecidableEq κ] (t : Assoc κ α) (k : κ) : Option α := (t.find? (fun p => p.1 = k)).map (·.2)

/-- The loop of `=` for a sequence and a table (`collection.dylan:936-948`): whether all are equal, and the key
    after the last one. -/
def equalKeys (eq : α → β → Bool) (t : Assoc Nat β) : List α → Nat → Bool × Nat
  | [], key => (true, key)
  | a :: l, key =>
    match assoc t key with
    | none => (false, key + 1)
    | some b => if eq a b then equalKeys eq t l (key + 1) else (false, key + 1)

/-- `=` for a sequence and a table whose keys are natural numbers (`collection.dylan:936-948`). -/
def equalSeqTable (eq : α → β → Bool) (l : List α) (t : Assoc Nat β) : Bool :=
  (equalKeys eq t l 0).1 && decide ((equalKeys eq t l 0).2 = t.length)

/-- The loop of `=` for two tables (`collection.dylan:917-928`). -/
def equalAll {κ : Type} [DecidableEq κ] (eq : α → β → Bool) (t : Assoc κ β) : Assoc κ α → Bool
  | [] => true
  | (k, a) :: l =>
    match assoc t k with
    | none => false
    | some b => if eq a b then equalAll eq t l else false

/-- `=` for two tables with the same key test (`collection.dylan:917-928`). -/
def equalTables {κ : Type} [DecidableEq κ] (eq : α → β → Bool) (s : Assoc κ α) (t : Assoc κ β) : Bool :=
  if s.length ≠ t.length then false else equalAll eq t s

/-! ### Functions that build a list and reverse it -/

/-- `remove` (`sequence.dylan:312-342`), the loop: what is left in reverse, and whether something was removed. -/
def removeLoop (test : α → Bool) : List α → Option Int → List α → Bool → List α × Bool
  | [], _, new, changed => (new, changed)
  | item :: l, some count, new, changed =>
    if count > 0 ∧ test item = true then removeLoop test l (some (count - 1)) new true else removeLoop test l (some count) (item :: new) changed
  | item :: l, none, new, changed =>
    if test item then removeLoop test l none new true else removeLoop test l none (item :: new) changed

/-- `remove` (`sequence.dylan:312-342`). -/
def remove (test : α → Bool) (l : List α) (count : Option Int) : List α :=
  let r := removeLoop test l count [] false
  if r.2 then r.1.reverse else l

/-- The loop of `choose-by` (`sequence.dylan:376-387`). -/
def chooseLoop (test : α → Bool) : List α → List β → List β → List β
  | t :: ts, v :: vs, result => chooseLoop test ts vs (if test t then v :: result else result)
  | _, _, result => result

/-- `choose-by` (`sequence.dylan:376-387`). -/
def chooseBy (test : α → Bool) (ts : List α) (vs : List β) : List β := (chooseLoop test ts vs []).reverse

/-- `choose` (`sequence.dylan:361-369`): the loop is that of `choose-by` with one sequence. -/
def choose (test : α → Bool) (l : List α) : List α := chooseBy test l l

/-- `member?` (`collection.dylan:833-841`). -/
def member (test : α → β → Bool) (value : α) : List β → Bool
  | [] => false
  | item :: l => if test value item then true else member test value l

/-- `intersection` (`sequence.dylan:394-406`). -/
def intersection (test : α → β → Bool) (s1 : List α) (s2 : List β) : List α :=
  s1.foldl (fun result item => if member test item s2 then item :: result else result) []

/-- `union` (`sequence.dylan:413-427`). -/
def union (test : α → α → Bool) (s1 s2 : List α) : List α :=
  s1.foldl (fun new item => if member test item s2 then new else item :: new) s2

/-- `any?` for one sequence (`collection.dylan:712-719`) with a test that returns true or false. -/
def anyOne (test : α → Bool) : List α → Bool
  | [] => false
  | item :: l => if test item then true else anyOne test l

/-- The loop of `remove-duplicates` (`sequence.dylan:434-451`): the new list in reverse, and whether there were
    duplicates. -/
def dupLoop (test : α → α → Bool) : List α → List α → Bool → List α × Bool
  | [], new, dup => (new, dup)
  | item :: l, new, dup => if anyOne (fun el => test el item) new then dupLoop test l new true else dupLoop test l (item :: new) dup

/-- `remove-duplicates` (`sequence.dylan:434-451`). -/
def removeDuplicates (test : α → α → Bool) (l : List α) : List α :=
  let r := dupLoop test l [] false
  if r.2 then r.1.reverse else l

/-- `add-new` (`sequence.dylan:282-290`), with `add` (`sequence.dylan:262-265`). -/
def addNew (test : α → α → Bool) (l : List α) (e : α) : List α := if anyOne (fun el => test el e) l then l else e :: l

/-- `every?` for two sequences (`collection.dylan:774-780`). -/
def everyTwo (test : α → β → Bool) : List α → List β → Bool
  | a :: l, b :: m => if test a b then everyTwo test l m else false
  | _, _ => true

/-- The elements of a sequence stored one by one from `i` on (`sequence.dylan:186-190`). -/
def storeFrom : List α → List α → Nat → Option (List α)
  | [], res, _ => some res
  | a :: l, res, i => if i < res.length then storeFrom l (res.set i a) (i + 1) else none

/-- The elements of several sequences, one after the other (`sequence.dylan:186-197`): the result, and the index of
    the state. -/
def storeEach : List (List α) → Option (List α × Nat) → Option (List α × Nat)
  | [], r => r
  | _ :: _, none => none
  | s :: ss, some (res, i) => storeEach ss ((storeFrom s res i).map (fun res' => (res', i + s.length)))

/-- `concatenate-as` of three or more sequences (`sequence.dylan:157-203`; which sequences are not empty is counted in a loop). -/
def concatenateAs (first : List α) (rest : List (List α)) : Option (List α) :=
  let total := rest.foldl (fun n s => n + s.length) first.length
  match (first :: rest).find? (fun s => !s.isEmpty) with
  | none => some []
  | some [] => some []
  | some (fill :: l) =>
    if ((first :: rest).filter (fun s => !s.isEmpty)).length = 1 then some (fill :: l)
    else (storeEach (first :: rest) (some (List.replicate total fill, 0))).map (·.1)

end Verif.Iter
