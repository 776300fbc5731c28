/-
Model of the filters behind `use` clauses of module and library
definitions: sources/dfmc/namespace/filters.dylan.
-/

namespace Verif.Names

/-- A name.  dfmc/namespace/filters.dylan:65-66: names are symbols and are
compared with `==`; symbols are interned without regard to case
(dylan/symbol-table.dylan:14-38), so a symbol is modelled by its
characters in lower case. -/
abbrev Name := { s : List Char // s.map Char.toLower = s }

theorem toLower_toLower (c : Char) : c.toLower.toLower = c.toLower := by
  by_cases h : c.val ≥ 'A'.val ∧ c.val ≤ 'Z'.val
  · have hn : ¬ (c.toLower.val ≥ 'A'.val ∧ c.toLower.val ≤ 'Z'.val) := by
      unfold Char.toLower
      rw [dif_pos h]
      simp only [UInt32.le_iff_toNat_le, ge_iff_le] at h ⊢
      simp at h ⊢
      omega
    generalize c.toLower = d at hn
    unfold Char.toLower
    rw [dif_neg hn]
  · have : c.toLower = c := by
      unfold Char.toLower
      rw [dif_neg h]
    rw [this, this]

/-- `as(<symbol>, string)`: dylan/symbol-table.dylan:132-175, which finds the
symbol whose letters are the same but for their case. -/
def symbol (s : List Char) : Name :=
  ⟨s.map Char.toLower, by simp [toLower_toLower]⟩

/-- One item of an `import:` option, dfmc/definitions/parse-namespace-clauses.dylan:286-298
(`parse-renames-to-symbols`): a name, or a pair of a name and its new name. -/
inductive Item where
  | plain (n : Name)
  | renamed (old new : Name)
deriving DecidableEq

/-- A parsed `use` clause: dfmc/namespace/namespaces.dylan:15-20 with the
options of dfmc/definitions/parse-namespace-clauses.dylan:79-83.  `none` for
`imports` and for `exports` is `all`.  Simplified: the used namespace is
given by its number in the order of definition; an option that is missing
holds its default of filters.dylan:76-90; the prefix is held as the symbol
the filter turns it into (filters.dylan:219). -/
structure Use where
  used : Nat
  imports : Option (List Item) := none
  exclude : List Name := []
  pre : Name := symbol []
  rename : List (Name × Name) := []
  exports : Option (List Name) := some []

/-- `choose(complement(rcurry(instance?, <pair>)), spec)`,
dfmc/namespace/filters.dylan:179. -/
def plains : List Item → List Name
  | [] => []
  | Item.plain n :: is => n :: plains is
  | Item.renamed _ _ :: is => plains is

/-- `choose(rcurry(instance?, <pair>), spec)`,
dfmc/namespace/filters.dylan:178. -/
def pairs : List Item → List (Name × Name)
  | [] => []
  | Item.plain _ :: is => pairs is
  | Item.renamed o n :: is => (o, n) :: pairs is

/-- What a filter holds after `ensure-valid-filter`. -/
structure Filter where
  importSpec : Option (List Name)
  excludeSpec : List Name
  pre : Name
  renameSpec : List (Name × Name)
  exportSpec : Option (List Name)

/-- `remove-duplicates`, dylan/sequence.dylan:434-451: later copies go. -/
def removeDuplicates (l : List Name) : List Name :=
  (l.foldl (fun new x => if x ∈ new then new else x :: new) []).reverse

/-- `ensure-valid-filter`, dfmc/namespace/filters.dylan:152-190.
Simplified: the two warnings are not modelled. -/
def ensureValid (u : Use) : Filter :=
  match u.imports with
  | none =>
    { importSpec := none
      excludeSpec := u.exclude
      pre := u.pre
      renameSpec := u.rename
      exportSpec := u.exports }
  | some spec =>
    { importSpec := some (removeDuplicates
        (plains spec ++ (u.rename ++ pairs spec).map Prod.fst))
      excludeSpec := []
      pre := u.pre
      renameSpec := u.rename ++ pairs spec
      exportSpec := u.exports }

/-- The import step, dfmc/namespace/filters.dylan:195-205. -/
def importStep (f : Filter) (keys : List Name) : List Name :=
  match f.importSpec with
  | none => keys
  | some imported => keys.filter (fun k => decide (k ∈ imported))

/-- The exclude step, dfmc/namespace/filters.dylan:206-216. -/
def excludeStep (f : Filter) (keys : List Name) : List Name :=
  if f.excludeSpec.isEmpty then keys
  else keys.filter (fun k => !decide (k ∈ f.excludeSpec))

/-- The aliases `renaming-expander` gives one key,
dfmc/namespace/filters.dylan:247-258.  `sp` gives the spelling a symbol was
first seen with, which is what `as(<string>, key)` returns. -/
def aliases (sp : Name → List Char) (f : Filter) (key : Name) : List Name :=
  let found := (f.renameSpec.filter (fun r => decide (key = r.1))).map Prod.snd
  if found.isEmpty then [symbol (sp f.pre ++ sp key)] else found.reverse

/-- `renaming-expander`, dfmc/namespace/filters.dylan:244-263. -/
def renamingExpander (sp : Name → List Char) (f : Filter)
    (keys : List Name) : List Name :=
  keys.foldl (fun acc key => aliases sp f key ++ acc) []

/-- The names `unrenaming-expander` gives one key,
dfmc/namespace/filters.dylan:268-290.  `subsequence-position` returns zero
exactly when the pattern is a prefix. -/
def unaliases (sp : Name → List Char) (f : Filter) (key : Name) : List Name :=
  let found := (f.renameSpec.filter (fun r => decide (key = r.2))).map Prod.fst
  if found.isEmpty then
    if (sp f.pre).isPrefixOf (sp key) then
      let n := symbol ((sp key).drop (sp f.pre).length)
      if n ∈ f.excludeSpec ∨ n ∈ f.renameSpec.map Prod.fst then [] else [n]
    else []
  else found.reverse

/-- `unrenaming-expander`, dfmc/namespace/filters.dylan:265-295. -/
def unrenamingExpander (sp : Name → List Char) (f : Filter)
    (keys : List Name) : List Name :=
  keys.foldl (fun acc key => unaliases sp f key ++ acc) []

/-- `key->filtered-key`, dfmc/namespace/filters.dylan:192-227: import, then
exclude, then rename, the last only where there is something to do. -/
def keyToFiltered (sp : Name → List Char) (f : Filter)
    (keys : List Name) : List Name :=
  let keys := excludeStep f (importStep f keys)
  if f.renameSpec.isEmpty && (sp f.pre).isEmpty then keys
  else renamingExpander sp f keys

/-- `filtered-key->key`, dfmc/namespace/filters.dylan:192-226: unrename, then
import, then exclude. -/
def filteredToKey (sp : Name → List Char) (f : Filter)
    (keys : List Name) : List Name :=
  let keys := if f.renameSpec.isEmpty && (sp f.pre).isEmpty then keys
    else unrenamingExpander sp f keys
  excludeStep f (importStep f keys)

/-- The export step of `key->exported-filtered-key`,
dfmc/namespace/filters.dylan:228-240. -/
def exportStep (f : Filter) (keys : List Name) : List Name :=
  match f.exportSpec with
  | none => keys
  | some exported => keys.filter (fun k => decide (k ∈ exported))

/-- `filter-name`, dfmc/namespace/filters.dylan:297-299. -/
def filterName (sp : Name → List Char) (u : Use) (name : Name) : List Name :=
  keyToFiltered sp (ensureValid u) [name]

/-- `filter-exported-name`, dfmc/namespace/filters.dylan:306-308. -/
def filterExportedName (sp : Name → List Char) (u : Use) (name : Name) :
    List Name :=
  exportStep (ensureValid u) (keyToFiltered sp (ensureValid u) [name])

/-- `unfilter-name`, dfmc/namespace/filters.dylan:301-304. -/
def unfilterName (sp : Name → List Char) (u : Use) (name : Name) :
    Option Name :=
  (filteredToKey sp (ensureValid u) [name]).head?

end Verif.Names
