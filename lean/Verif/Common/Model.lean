/-
Model of functions on sequences in /repo/sources/common-dylan/common-extensions.dylan.

Simplifications: a sequence is the list of its elements (its class and its identity are left out),
integers are unbounded, and functions given as arguments are total and change nothing.
-/
namespace Verif.Common

variable {α : Type}

/-- What a call does: it returns, it signals the error for an empty separator, an index is out of the
    bounds of its sequence, or it goes on for ever. -/
inductive Res (β : Type) where
  | ok (b : β)
  | emptySeparator
  | bounds
  | loop
  deriving DecidableEq

/-- `copy-sequence(seq, start: i, end: j)`; `none` if the bounds are invalid
    (`dylan/sequence.dylan:498-511`, `check-start-compute-end`). -/
def copySeq (l : List α) (i j : Int) : Option (List α) :=
  if i < 0 ∨ (l.length : Int) < j ∨ j < i then none else some ((l.take j.toNat).drop i.toNat)

/-- The loop of `split` with a function (`common-extensions.dylan:235-262`); the parts are kept in
    reverse. -/
def splitLoop (seq : List α) (find : Int → Int → Option (Int × Int)) (epos count : Int) (removeEmpty : Bool) :
    Nat → Int → List (List α) → Int → Res (List (List α))
  | 0, _, _, _ => .loop
  | fuel + 1, bpos, parts, nparts =>
    match (find bpos epos).filter (fun r => r.2 ≤ epos) with
    | some (sepStart, sepEnd) =>
      if sepStart = sepEnd then .emptySeparator
      else
        match copySeq seq bpos sepStart with
        | none => .bounds
        | some part =>
          if removeEmpty ∧ part = [] then splitLoop seq find epos count removeEmpty fuel sepEnd parts nparts
          else if nparts < count then splitLoop seq find epos count removeEmpty fuel sepEnd (part :: parts) (nparts + 1)
          else
            match copySeq seq bpos epos with
            | none => .bounds
            | some part => .ok (part :: parts)
    | none =>
      match copySeq seq bpos epos with
      | none => .bounds
      | some part => if removeEmpty ∧ part = [] then .ok parts else .ok (part :: parts)

/-- `split` with a function (`common-extensions.dylan:228-263`). -/
def splitFun (fuel : Nat) (seq : List α) (find : Int → Int → Option (Int × Int)) (start : Int) (epos count : Option Int) (removeEmpty : Bool) :
    Res (List (List α)) :=
  let epos := epos.getD seq.length
  match splitLoop seq find epos (count.getD (epos + 1)) removeEmpty fuel start [] 1 with
  | .ok parts => .ok parts.reverse
  | r => r

/-- `looking-at?` (`common-extensions.dylan:277-289`): from position `b` of the sequence and `p` of the
    pattern on; `k` bounds the number of rounds. -/
def lookingAt (test : α → α → Bool) (big pattern : List α) : Nat → Nat → Nat → Bool
  | 0, _, _ => true
  | k + 1, b, p =>
    if pattern.length ≤ p then true
    else
      match big[b]?, pattern[p]? with
      | some x, some y => if test y x then lookingAt test big pattern k (b + 1) (p + 1) else false
      | _, _ => false

/-- `find-separator` for a sequence (`common-extensions.dylan:291-307`); `k` bounds the number of rounds. -/
def findSeparator (test : α → α → Bool) (seq sep : List α) : Nat → Int → Int → Option (Int × Int)
  | 0, _, _ => none
  | k + 1, i, epos =>
    if i ≤ epos - sep.length then
      if lookingAt test seq sep (sep.length + 1) i.toNat 0 then some (i, i + sep.length)
      else findSeparator test seq sep k (i + 1) epos
    else none

/-- `split` with a sequence (`common-extensions.dylan:268-310`). -/
def splitSeq (test : α → α → Bool) (fuel : Nat) (seq sep : List α) (start : Int) (epos count : Option Int) (removeEmpty : Bool) : Res (List (List α)) :=
  splitFun fuel seq (findSeparator test seq sep (seq.length + 2)) start epos count removeEmpty

/-- `find-pos` (`common-extensions.dylan:322-335`): `k` bounds the number of rounds.  An element beyond
    the end of the sequence would be an error; it is not looked at if `end:` is within the sequence. -/
def findPos (test : α → Bool) (seq : List α) : Nat → Int → Int → Option (Int × Int)
  | 0, _, _ => none
  | k + 1, i, epos =>
    if i < epos then
      match seq[i.toNat]? with
      | some x => if test x then some (i, i + 1) else findPos test seq k (i + 1) epos
      | none => none
    else none

/-- `split` with an object (`common-extensions.dylan:314-338`): `test` is the test with the separator as its
    second argument. -/
def splitObj (test : α → Bool) (fuel : Nat) (seq : List α) (start : Int) (epos count : Option Int) (removeEmpty : Bool) : Res (List (List α)) :=
  splitFun fuel seq (findPos test seq (seq.length + 2)) start epos count removeEmpty

/-- `copy-to-result` in `join` (`common-extensions.dylan:385-388`): `replace-subsequence!` of as many
    elements as are copied, in the result of a fixed size. -/
def copyTo (r : Option (List α × Nat)) (s : List α) : Option (List α × Nat) :=
  match r with
  | none => none
  | some (res, i) => if i + s.length ≤ res.length then some (res.take i ++ s ++ res.drop (i + s.length), i + s.length) else none

/-- The separator before sequence `i` (`common-extensions.dylan:393-397`). -/
def separatorAt (separator : List α) (conjunction : Option (List α)) (maxIndex i : Nat) : List α :=
  match conjunction with
  | some c => if i = maxIndex then c else separator
  | none => separator

/-- The loop of `join` (`common-extensions.dylan:390-399`), from `i` on. -/
def joinLoop (separator : List α) (conjunction : Option (List α)) (maxIndex : Nat) : List (List α) → Nat → Option (List α × Nat) → Option (List α × Nat)
  | [], _, r => r
  | s :: rest, i, r =>
    joinLoop separator conjunction maxIndex rest (i + 1) (copyTo (copyTo r (separatorAt separator conjunction maxIndex i)) s)

/-- What the conjunction adds to the size of the result (`common-extensions.dylan:375-380`). -/
def extraSize (separator : List α) : Option (List α) → Int
  | some c => (c.length : Int) - separator.length
  | none => 0

/-- `join` (`common-extensions.dylan:353-402`), of the sequences the key was applied to; `blank` fills the
    new sequence. -/
def join (blank : α) (sequences : List (List α)) (separator : List α) (conjunction : Option (List α)) : Option (List α) :=
  match sequences with
  | [] => some []
  | [s] => some s
  | first :: rest =>
    let length := sequences.length
    let resultSize : Int := sequences.foldl (fun n s => n + (s.length : Int)) 0 + (separator.length : Int) * ((length : Int) - 1) +
      extraSize separator conjunction
    (joinLoop separator conjunction (length - 1) rest 1 (copyTo (some (List.replicate resultSize.toNat blank, 0)) first)).map (·.1)

/-- How many elements are passed over: `count: n` stands for `skip: n - 1` (`common-extensions.dylan:127,156`). -/
def skipOf (skip : Int) : Option Int → Int
  | some c => c - 1
  | none => skip

/-- The search of `position` for vectors (`common-extensions.dylan:155-168`); `k` bounds the rounds. -/
def positionLoop (test : α → Bool) (seq : List α) (fin : Int) : Nat → Int → Int → Res (Option Int)
  | 0, _, _ => .loop
  | k + 1, index, skip =>
    if fin ≤ index then .ok none
    else if index < 0 then .bounds
    else
      match seq[index.toNat]? with
      | none => .bounds
      | some x =>
        if test x then if skip = 0 then .ok (some index) else positionLoop test seq fin k (index + 1) (skip - 1)
        else positionLoop test seq fin k (index + 1) skip

/-- `position` for vectors (`common-extensions.dylan:146-169`): `test` is the test with the target as its
    first argument. -/
def position (test : α → Bool) (seq : List α) (start : Int) (fin : Option Int) (skip : Int) (count : Option Int) : Res (Option Int) :=
  let fin := fin.getD seq.length
  positionLoop test seq fin ((fin - start).toNat + 1) start (skipOf skip count)

/-- The index is not before the end, if there is one (`common-extensions.dylan:129`). -/
def beyond : Option Int → Int → Bool
  | some e, index => decide (e ≤ index)
  | none, _ => false

/-- The search of `position` for any sequence (`common-extensions.dylan:126-140`): `state` is what is left. -/
def positionFipLoop (test : α → Bool) (fin : Option Int) : List α → Int → Int → Option Int
  | [], _, _ => none
  | x :: state, index, skip =>
    if beyond fin index then none
    else if test x then if skip = 0 then some index else positionFipLoop test fin state (index + 1) (skip - 1)
    else positionFipLoop test fin state (index + 1) skip

/-- `position` for any sequence (`common-extensions.dylan:112-143`), whose state is the list of the elements
    that are left (as of lists). -/
def positionFip (test : α → Bool) (seq : List α) (start : Int) (fin : Option Int) (skip : Int) (count : Option Int) : Option Int :=
  positionFipLoop test fin (seq.drop start.toNat) start (skipOf skip count)

/-- The loop of `find-key` for sequences (`dylan/sequence.dylan:686-696`): the index of the element found. -/
def findKeyLoop (fn : α → Bool) : List α → Int → Int → Option Int
  | [], _, _ => none
  | e :: rest, index, skip =>
    if fn e then if skip - 1 < 0 then some index else findKeyLoop fn rest (index + 1) (skip - 1)
    else findKeyLoop fn rest (index + 1) skip

/-- `find-element` (`common-extensions.dylan:409-420`), for sequences. -/
def findElement (fn : α → Bool) (seq : List α) (skip : Int) (failure : α) : α :=
  match findKeyLoop fn seq 0 skip with
  | none => failure
  | some key => (seq[key.toNat]?).getD failure

/-- `difference` (`common-extensions.dylan:93-99`): `member?(item, sequence-2, test: test)` applies the test to
    the item and the element (`dylan/collection.dylan:833-841`). -/
def difference (test : α → α → Bool) (s1 s2 : List α) : List α := s1.filter (fun item => !(s2.any (test item)))

/-- `fill-table!` (`common-extensions.dylan:422-435`): an object is `none` if it is `#f`; the table is the list of
    the assignments, the last one first. -/
def fillTable {κ : Type} : List (Option κ) → Option κ → List (κ × Option κ) → List (κ × Option κ)
  | [], _, table => table
  | object :: rest, key, table =>
    match key with
    | some k => fillTable rest none ((k, object) :: table)
    | none => fillTable rest object table

end Verif.Common
