import Verif.HeapTable.Model
/-!
# Specification of the C hash table: a finite map

A finite map is a list of key/value pairs without repeated keys (the order is irrelevant).
The specification mentions nothing of hashing.
-/
namespace Verif.HeapTable

/-- The operations a client can perform.  For `define`, `allocOk` is the environment's choice of
whether memory can be allocated if it should be needed. -/
inductive Op where
  | lookup (key : Nat)
  | define (key value : Nat) (allocOk : Bool)
  | redefine (key value : Nat)
  | remove (key : Nat)
  | count
  deriving DecidableEq, Repr

/-- What a call returns. -/
inductive Out where
  | found (v : Nat)
  | ok
  | failed
  | number (n : Nat)
  deriving DecidableEq, Repr

/-- The finite map. -/
abbrev FMap := List (Nat × Nat)

/-- `k` has value `v` in the map. -/
def FMap.Maps (m : FMap) (k v : Nat) : Prop := (k, v) ∈ m

/-- `k` is a key of the map. -/
def FMap.Has (m : FMap) (k : Nat) : Prop := ∃ v, (k, v) ∈ m

/-- What each call may return, and what the map is afterwards. -/
inductive SpecStep : FMap → Op → Out → FMap → Prop
  | lookupFound {m k v} : m.Maps k v → SpecStep m (.lookup k) (.found v) m
  | lookupMissing {m k} : ¬ m.Has k → SpecStep m (.lookup k) .failed m
  | defineNew {m k v b} : ¬ m.Has k → SpecStep m (.define k v b) .ok ((k, v) :: m)
  | defineOld {m k v b} : m.Has k → SpecStep m (.define k v b) .failed m
  /-- only when memory is exhausted: the call fails and changes nothing -/
  | defineNoMemory {m k v} : ¬ m.Has k → SpecStep m (.define k v false) .failed m
  | redefineOld {m k v} : m.Has k →
      SpecStep m (.redefine k v) .ok ((k, v) :: m.filter fun p => p.1 ≠ k)
  | redefineMissing {m k v} : ¬ m.Has k → SpecStep m (.redefine k v) .failed m
  | removeOld {m k} : m.Has k → SpecStep m (.remove k) .ok (m.filter fun p => p.1 ≠ k)
  | removeMissing {m k} : ¬ m.Has k → SpecStep m (.remove k) .failed m
  | count {m} : SpecStep m .count (.number m.length) m

/-- A whole history of calls with their results. -/
inductive SpecRun : FMap → List (Op × Out) → FMap → Prop
  | nil {m} : SpecRun m [] m
  | cons {m m' m'' op out h} : SpecStep m op out m' → SpecRun m' h m'' →
      SpecRun m ((op, out) :: h) m''

/-- One API call on the model of the code; `none` is an assertion failure or undefined behaviour. -/
def call (t : Table) : Op → Option (Out × Table)
  | .lookup k =>
    (tableLookup t k).map fun (r, t) => (match r with | some v => .found v | none => .failed, t)
  | .define k v b => (tableDefine t k v b).map fun (r, t) => (if r then .ok else .failed, t)
  | .redefine k v => (tableRedefine t k v).map fun (r, t) => (if r then .ok else .failed, t)
  | .remove k => (tableRemove t k).map fun (r, t) => (if r then .ok else .failed, t)
  | .count => some (.number (tableCount t), t)

/-- A history of API calls on the model of the code, with the results. -/
def runCalls (t : Table) : List Op → Option (List (Op × Out) × Table)
  | [] => some ([], t)
  | op :: ops =>
    match call t op with
    | none => none
    | some (out, t') =>
      match runCalls t' ops with
      | none => none
      | some (h, t'') => some ((op, out) :: h, t'')

end Verif.HeapTable
