import Verif.Names.Filter

/-
Model of namespaces as the compiler uses them for modules: what a module
imports, what it exports, and how a name is looked up in it, with the caches.
sources/dfmc/namespace/namespaces.dylan and modules.dylan.
-/

namespace Verif.Names

/-- A canonical binding: the module it belongs to and its name there,
dfmc/namespace/modules.dylan:100-108. -/
structure Binding where
  home : Nat
  name : Name
deriving DecidableEq

/-- `element(table, key, default: $unfound)`: a table is modelled by its
entries. -/
def get {β : Type} : List (Name × β) → Name → Option β
  | [], _ => none
  | (k, v) :: r, n => if k = n then some v else get r n

/-- `remove-key!(table, key)`. -/
def remove {β : Type} (t : List (Name × β)) (n : Name) : List (Name × β) :=
  t.filter (fun p => !decide (p.1 = n))

/-- `table[key] := value`. -/
def put {β : Type} (t : List (Name × β)) (n : Name) (v : β) :
    List (Name × β) :=
  (n, v) :: remove t n

/-- The order in which tables and sets are gone through, which nothing
promises: any order of the same entries. -/
structure Order where
  names : List Name → List Name
  table : List (Name × Binding) → List (Name × Binding)
  mem_names : ∀ l x, x ∈ names l ↔ x ∈ l
  mem_table : ∀ t x, x ∈ table t ↔ x ∈ t

/-- A module definition: dfmc/namespace/namespaces.dylan:85-105, the clauses. -/
structure Decl where
  uses : List Use := []
  exports : List Name := []
  creates : List Name := []

/-- A module: dfmc/namespace/namespaces.dylan:63-105.  `locals` is
`namespace-local-bindings`; `cache` is `imported-name-cache`, where `none`
stands for `$name-not-imported`; `reexp` is `cached-exported-imports-table`.
Simplified: the tables of macro words and what only other parts of the
compiler use are not modelled. -/
structure Mod where
  uses : List Use := []
  locals : List (Name × Binding) := []
  cache : List (Name × Option Binding) := []
  exported : List Name := []
  reexp : Option (List (Name × Binding)) := none

/-- The modules of a library in the order they were defined, and whether the
compiler has run into an error.  `resolve-used-namespace`,
dfmc/namespace/modules.dylan:110-116, finds a module once it is defined. -/
structure St where
  count : Nat := 0
  mods : Nat → Mod := fun _ => {}
  err : Bool := false

/-- Change one module. -/
def St.upd (s : St) (i : Nat) (f : Mod → Mod) : St :=
  { s with mods := fun j => if j = i then f (s.mods i) else s.mods j }

/-- `name-definition`, dfmc/namespace/namespaces.dylan:263-270. -/
def nameDef (s : St) (i : Nat) (n : Name) : Option Binding :=
  get (s.mods i).locals n

/-- `do-exported-names`, dfmc/namespace/namespaces.dylan:381-386. -/
def passOn (m : Mod) (ls : List Name) (b : Binding) : Mod :=
  ls.foldl (fun m l =>
    { m with reexp := m.reexp.map (fun t => put t l b)
             cache := remove m.cache l }) m

/-- The loop over the names a used module exports itself,
dfmc/namespace/namespaces.dylan:389-394.  `name-definition` without a default
is an error where the name is not defined. -/
def passNames (sp : Name → List Char) (i : Nat) (u : Use) :
    List Name → St → St
  | [], s => s
  | n :: ns, s =>
    if (filterExportedName sp u n).isEmpty then passNames sp i u ns s
    else match nameDef s u.used n with
      | some b => passNames sp i u ns
          (s.upd i (fun m => passOn m (filterExportedName sp u n) b))
      | none => { s with err := true }

/-- The loop over the names a used module passes on,
dfmc/namespace/namespaces.dylan:395-400. -/
def passTable (sp : Name → List Char) (i : Nat) (u : Use) :
    List (Name × Binding) → St → St
  | [], s => s
  | p :: ps, s => passTable sp i u ps
      (s.upd i (fun m => passOn m (filterExportedName sp u p.1) p.2))

/-- The table a module has been given. -/
def tableOf (s : St) (i : Nat) : List (Name × Binding) :=
  ((s.mods i).reexp).getD []

/-- `exported-imports-table` and `make-exported-imports-table`,
dfmc/namespace/namespaces.dylan:371-403: the table is made on demand and kept.
A module uses modules defined before it, so a depth of its number and one is
enough; running out of depth is an error the theorems rule out. -/
def exportedImports (o : Order) (sp : Name → List Char) :
    Nat → Nat → St → St
  | 0, _, s => { s with err := true }
  | depth + 1, i, s =>
    if (s.mods i).reexp.isSome then s
    else
      let s := s.upd i (fun m => { m with reexp := some [] })
      (s.mods i).uses.foldl (fun s u =>
        if u.used < s.count then
          let s := passNames sp i u (o.names (s.mods u.used).exported) s
          let s := exportedImports o sp depth u.used s
          passTable sp i u (o.table (tableOf s u.used)) s
        else { s with err := true }) s

/-- `lookup-exported-name`, dfmc/namespace/namespaces.dylan:323-333, with a
default. -/
def lookupExported (o : Order) (sp : Name → List Char) (s : St) (i : Nat)
    (n : Name) : St × Option Binding :=
  if n ∈ (s.mods i).exported then (s, nameDef s i n)
  else
    let s := exportedImports o sp (i + 1) i s
    (s, get (tableOf s i) n)

/-- `lookup-imported-name`, dfmc/namespace/namespaces.dylan:305-321. -/
def lookupImported (o : Order) (sp : Name → List Char) :
    List Use → St → Name → St × Option Binding
  | [], s, _ => (s, none)
  | u :: us, s, l =>
    match unfilterName sp u l with
    | none => lookupImported o sp us s l
    | some n =>
      if u.used < s.count then
        let r := lookupExported o sp s u.used n
        match r.2 with
        | some b => (r.1, some b)
        | none => lookupImported o sp us r.1 l
      else lookupImported o sp us s l

/-- The value of `lookup-name` in the tables,
dfmc/namespace/namespaces.dylan:344-358: the name's own definition, then the
table of names passed on, if it was made, then the cache. -/
def lookupTables (m : Mod) (l : Name) : Option (Option Binding) :=
  match get m.locals l with
  | some b => some (some b)
  | none =>
    match m.reexp.bind (fun t => get t l) with
    | some b => some (some b)
    | none => get m.cache l

/-- `lookup-name`, dfmc/namespace/namespaces.dylan:337-369, with a default and
for a name used inside the module. -/
def lookupName (o : Order) (sp : Name → List Char) (s : St) (i : Nat)
    (l : Name) : St × Option Binding :=
  match lookupTables (s.mods i) l with
  | some v => (s, v)
  | none =>
    let r := lookupImported o sp (s.mods i).uses s l
    (r.1.upd i (fun m => { m with cache := put m.cache l r.2 }), r.2)

/-- `define-name`, dfmc/namespace/namespaces.dylan:277-282. -/
def defineName (s : St) (i : Nat) (n : Name) (b : Binding) : St :=
  s.upd i (fun m => { m with cache := remove m.cache n
                             locals := put m.locals n b })

/-- `untracked-lookup-binding-in` and `new-binding-in`,
dfmc/namespace/modules.dylan:236-255: a name that is not found becomes a name
of the module.  Simplified: the copy of the binding that belongs to the
requesting library is not modelled. -/
def lookupBinding (o : Order) (sp : Name → List Char) (s : St) (i : Nat)
    (l : Name) : St × Binding :=
  let r := lookupName o sp s i l
  match r.2 with
  | some b => (r.1, b)
  | none => (defineName r.1 i l ⟨i, l⟩, ⟨i, l⟩)

/-- The warnings of a module definition,
dfmc/namespace/namespaces.dylan:463-519. -/
inductive Note where
  | usedNotFound (used : Nat)
  | clash (name : Name) (first other : Binding)
  | exportConflict (name : Name) (imported : Binding)
  | createConflict (name : Name) (imported : Binding)
deriving DecidableEq

/-- What `compute-imports` builds up: the modules, as tables are made on the
way, the imports and the warnings. -/
structure Imports where
  st : St
  table : List (Name × Binding)
  notes : List Note

/-- The inner loop of `update-name`, dfmc/namespace/namespaces.dylan:537-548. -/
def addImport (r : Imports) (l : Name) (new : Binding) : Imports :=
  match get r.table l with
  | none => { r with table := put r.table l new }
  | some old =>
    if old = new then r
    else { r with notes := r.notes ++ [Note.clash l old new] }

/-- `update-name`, dfmc/namespace/namespaces.dylan:535-549. -/
def updateName (sp : Name → List Char) (u : Use) (r : Imports) (n : Name)
    (new : Binding) : Imports :=
  (filterName sp u n).foldl (fun r l => addImport r l new) r

/-- The loop of `update-imports` over the names the used module exports
itself, dfmc/namespace/namespaces.dylan:550-552. -/
def updateNames (sp : Name → List Char) (u : Use) :
    List Name → Imports → Imports
  | [], r => r
  | n :: ns, r =>
    match nameDef r.st u.used n with
    | some b => updateNames sp u ns (updateName sp u r n b)
    | none => { r with st := { r.st with err := true } }

/-- The loop of `update-imports` over the names the used module passes on,
dfmc/namespace/namespaces.dylan:553-555. -/
def updateTable (sp : Name → List Char) (u : Use) :
    List (Name × Binding) → Imports → Imports
  | [], r => r
  | p :: ps, r => updateTable sp u ps (updateName sp u r p.1 p.2)

/-- `update-imports`, dfmc/namespace/namespaces.dylan:521-558. -/
def updateImports (o : Order) (sp : Name → List Char) (r : Imports) (u : Use) :
    Imports :=
  if u.used < r.st.count then
    let r := updateNames sp u (o.names (r.st.mods u.used).exported) r
    let r := { r with st := exportedImports o sp (u.used + 1) u.used r.st }
    updateTable sp u (o.table (tableOf r.st u.used)) r
  else { r with notes := r.notes ++ [Note.usedNotFound u.used] }

/-- `compute-imports`, dfmc/namespace/namespaces.dylan:188-201. -/
def computeImports (o : Order) (sp : Name → List Char) (s : St)
    (uses : List Use) : Imports :=
  uses.foldl (updateImports o sp) ⟨s, [], []⟩

/-- One name of an export or create clause,
dfmc/namespace/namespaces.dylan:204-233 (`do-clause`). -/
def exportOne (i : Nat) (kind : Name → Binding → Note)
    (imports : List (Name × Binding)) (r : St × List Note) (n : Name) :
    St × List Note :=
  match get imports n with
  | some b =>
    (r.1.upd i (fun m => { m with cache := put m.cache n (some b) }),
     r.2 ++ [kind n b])
  | none =>
    let s := if (nameDef r.1 i n).isSome then r.1 else defineName r.1 i n ⟨i, n⟩
    (s.upd i (fun m => { m with exported :=
        if n ∈ m.exported then m.exported else n :: m.exported }), r.2)

/-- `make-namespace` with `compute-imports` and `update-exports!`,
dfmc/namespace/namespaces.dylan:188-246, and the installation of the module,
dfmc/namespace/modules.dylan:499-549.  Simplified: `note-namespace-imports`,
which looks for names of macros, is not modelled, nor is the redefinition of
a module. -/
def defineModule (o : Order) (sp : Name → List Char) (s : St) (d : Decl) :
    St × List Note :=
  let i := s.count
  let r := computeImports o sp s d.uses
  let s := r.st.upd i (fun _ =>
    { uses := d.uses.filter (fun u => decide (u.used < i)) })
  let e := d.exports.foldl (exportOne i Note.exportConflict r.table) (s, r.notes)
  let e := d.creates.foldl (exportOne i Note.createConflict r.table) e
  ({ e.1 with count := i + 1 }, e.2)

/-- What the compiler may do with the modules of a library. -/
inductive Op where
  | define
  | lookup (i : Nat) (n : Name)
  | lookupExp (i : Nat) (n : Name)

/-- One step; `D` gives the definitions in their order. -/
def step (o : Order) (sp : Name → List Char) (D : Nat → Decl) (s : St) :
    Op → St
  | Op.define => (defineModule o sp s (D s.count)).1
  | Op.lookup i n => if i < s.count then (lookupBinding o sp s i n).1 else s
  | Op.lookupExp i n => if i < s.count then (lookupExported o sp s i n).1 else s

/-- The state after some steps. -/
def run (o : Order) (sp : Name → List Char) (D : Nat → Decl) (ops : List Op) :
    St :=
  ops.foldl (step o sp D) {}

end Verif.Names
