/-!
# Model of `sources/lib/run-time/heap-table.c`

An open-addressing hash table from machine words to machine words, used by the heap
statistics code of the run-time.

Simplifications, valid for the whole file:
* keys and values (`void *`) are natural numbers; nothing is done with them but comparing keys;
* `size_t` is unbounded (doubling the length cannot wrap before memory runs out);
* memory allocation is an explicit flag saying whether `alloc_obj` returns non-NULL.
-/
namespace Verif.HeapTable

/-- heap-table.c lines 12-23: a `table_entry_s` with its status word.  The key and value that a
deleted or unused entry still stores are never read, so the model drops them. -/
inductive Entry where
  | unused
  | deleted
  | active (key value : Nat)
  deriving DecidableEq, Repr

/-- heap-table.c lines 26-30: `table_s`.  The `length` field always equals the number of
allocated entries, so it is `array.length`. -/
structure Table where
  array : List Entry
  count : Nat
  deriving DecidableEq, Repr

/-- The possible results of `table_find`: `NULL`, a pointer to entry `i`, or a fault (an access
outside the array, or a loop that did not stop). -/
inductive FindResult where
  | null
  | entry (i : Nat)
  | fault
  deriving DecidableEq, Repr

/-- heap-table.c lines 46-66: the `do ... while` loop of `table_find`, at index `i`.  `fuel` bounds
the number of iterations; running out of it is a `fault` (that this never happens is proved). -/
def findLoop (a : List Entry) (key hash : Nat) (skipDeleted : Bool) : Nat → Nat → FindResult
  | 0, _ => .fault
  | fuel + 1, i =>
    let next : FindResult :=
      let i' := (i + (hash ||| 1)) &&& (a.length - 1)
      if i' = hash then .null else findLoop a key hash skipDeleted fuel i'
    match a[i]? with
    | none => .fault
    | some .unused => .entry i
    | some .deleted => if skipDeleted then next else .entry i
    | some (.active k _) => if k = key then .entry i else next

/-- heap-table.c lines 40-69: `table_find`; the hash of a key is the key itself (lines 33-36)
masked with `length - 1`. -/
def tableFind (a : List Entry) (key : Nat) (skipDeleted : Bool) : FindResult :=
  let hash := key &&& (a.length - 1)
  findLoop a key hash skipDeleted a.length hash

/-- heap-table.c lines 94-103: the reinsertion loop of `table_grow` (`none`: an assertion of the
loop fails or `table_find` gives no entry). -/
def growLoop : List Entry → List Entry → Option (List Entry)
  | [], new => some new
  | .active k v :: old, new =>
    match tableFind new k false with
    | .entry i =>
      match new[i]? with
      | some .unused => growLoop old (new.set i (.active k v))
      | _ => none
    | _ => none
  | _ :: _, _ => none

/-- heap-table.c lines 74-107: `table_grow` (allocation successful). -/
def tableGrow (a : List Entry) : Option (List Entry) :=
  growLoop a (List.replicate (a.length * 2) .unused)

/-- heap-table.c lines 111-136: `table_create` (allocation successful). -/
def tableCreate (length : Nat) : Table :=
  { array := List.replicate length .unused, count := 0 }

/-- Result of an API call: `none` is a failed assertion or undefined behaviour. -/
abbrev Result (α : Type) := Option (α × Table)

/-- heap-table.c lines 149-159: `table_lookup`; the Boolean/value pair is an `Option`. -/
def tableLookup (t : Table) (key : Nat) : Result (Option Nat) :=
  match tableFind t.array key true with
  | .fault => none
  | .null => some (none, t)
  | .entry i =>
    match t.array[i]? with
    | some (.active _ v) => some (some v, t)
    | some _ => some (none, t)
    | none => none

/-- heap-table.c lines 182-189: the tail of `table_define`, storing in entry `i`
(the assertion of line 182 is checked). -/
def storeNew (a : List Entry) (count i key value : Nat) : Result Bool :=
  match a[i]? with
  | none => none
  | some (.active _ _) => none
  | some _ => some (true, { array := a.set i (.active key value), count := count + 1 })

/-- heap-table.c lines 163-190: `table_define`; `allocOk` tells whether `alloc_obj` in
`table_grow` succeeds. -/
def tableDefine (t : Table) (key value : Nat) (allocOk : Bool) : Result Bool :=
  match tableFind t.array key true with
  | .fault => none
  | .entry i =>
    match t.array[i]? with
    | some (.active _ _) => some (false, t)
    | _ => storeNew t.array t.count i key value
  | .null =>
    match tableFind t.array key false with
    | .fault => none
    | .entry i => storeNew t.array t.count i key value
    | .null =>
      if allocOk then
        match tableGrow t.array with
        | none => none
        | some a' =>
          match tableFind a' key false with
          | .entry i => storeNew a' t.count i key value
          | _ => none
      else some (false, t)

/-- heap-table.c lines 194-205: `table_redefine`. -/
def tableRedefine (t : Table) (key value : Nat) : Result Bool :=
  match tableFind t.array key true with
  | .fault => none
  | .null => some (false, t)
  | .entry i =>
    match t.array[i]? with
    | some (.active k _) =>
      if k = key then some (true, { t with array := t.array.set i (.active key value) }) else none
    | some _ => some (false, t)
    | none => none

/-- heap-table.c lines 209-220: `table_remove`. -/
def tableRemove (t : Table) (key : Nat) : Result Bool :=
  match tableFind t.array key true with
  | .fault => none
  | .null => some (false, t)
  | .entry i =>
    match t.array[i]? with
    | some (.active _ _) => some (true, { array := t.array.set i .deleted, count := t.count - 1 })
    | some _ => some (false, t)
    | none => none

/-- heap-table.c lines 224-233: `table_map`; the pairs the function is applied to, in order. -/
def tableMap (t : Table) : List (Nat × Nat) :=
  t.array.filterMap fun
    | .active k v => some (k, v)
    | _ => none

/-- heap-table.c lines 237-240: `table_count`. -/
def tableCount (t : Table) : Nat := t.count

end Verif.HeapTable
