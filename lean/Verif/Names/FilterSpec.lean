import Verif.Names.Filter

/-
What a `use` clause means, said without the filter's functions.
-/

namespace Verif.Names

/-- The clause gives the used name `n` the new name `l`, in its `rename:`
option or in its `import:` option. -/
def RenamedTo (u : Use) (n l : Name) : Prop :=
  (n, l) ∈ u.rename ∨ ∃ items, u.imports = some items ∧ Item.renamed n l ∈ items

/-- The clause asks for the used name `n`.  With `import: all` these are the
names that are not excluded; with a list of imports, the names listed there
and the names that are renamed. -/
def Selected (u : Use) (n : Name) : Prop :=
  match u.imports with
  | none => n ∉ u.exclude
  | some items => Item.plain n ∈ items ∨ ∃ l, RenamedTo u n l

/-- Through the clause, the used name `n` is seen under the name `l`: it is
asked for, and `l` is one of its new names or, where it has none, the name
with the prefix in front. -/
def Visible (u : Use) (n l : Name) : Prop :=
  Selected u n ∧
    (RenamedTo u n l ∨ (∀ l', ¬ RenamedTo u n l') ∧ l.1 = u.pre.1 ++ n.1)

/-- The clause passes the name `l` on to the users of the using namespace. -/
def PassedOn (u : Use) (l : Name) : Prop :=
  match u.exports with
  | none => True
  | some ls => l ∈ ls

/-- `sp` is a possible spelling of the symbols: each symbol is spelled with
its own letters, in some case. -/
def Spelling (sp : Name → List Char) : Prop := ∀ n, symbol (sp n) = n

/-- The spelling of `l` begins like the spelling of the prefix. -/
def SpelledAlike (sp : Name → List Char) (u : Use) (l : Name) : Prop :=
  u.pre.1 <+: l.1 → sp u.pre <+: sp l

/-- No name the clause renames is excluded by it. -/
def NoRenameExcluded (u : Use) : Prop :=
  ∀ n l, RenamedTo u n l → Selected u n

end Verif.Names
