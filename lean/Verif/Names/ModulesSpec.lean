import Verif.Names.Modules
import Verif.Names.FilterSpec

/-
What the modules of a library export and import, said without the compiler's
tables.
-/

namespace Verif.Names

/-- Module `i` exports the binding `b` under the name `n`: it is named in the
module's own export or create clauses, or a `use` clause brings it in and
passes it on. -/
inductive Exports (D : Nat → Decl) : Nat → Name → Binding → Prop
  | own {i : Nat} {n : Name} (h : n ∈ (D i).exports ∨ n ∈ (D i).creates) :
      Exports D i n ⟨i, n⟩
  | passed {i : Nat} {u : Use} {n l : Name} {b : Binding}
      (hu : u ∈ (D i).uses) (hi : u.used < i) (he : Exports D u.used n b)
      (hv : Visible u n l) (hp : PassedOn u l) : Exports D i l b

/-- Module `i` imports the binding `b` under the name `l`. -/
def Imported (D : Nat → Decl) (i : Nat) (l : Name) (b : Binding) : Prop :=
  ∃ u ∈ (D i).uses, u.used < i ∧ ∃ n, Exports D u.used n b ∧ Visible u n l

/-- The definition of module `i` is a clean one: no name is imported from two
origins, no name is both imported and the module's own, every name a clause
renames is there to rename and is not excluded, and prefixes are written in
the same case as the names that begin with them. -/
structure Clean (sp : Name → List Char) (D : Nat → Decl) (i : Nat) : Prop where
  one : ∀ l b b', Imported D i l b → Imported D i l b' → b = b'
  own : ∀ n b, n ∈ (D i).exports ∨ n ∈ (D i).creates → ¬ Imported D i n b
  renamed : ∀ u ∈ (D i).uses, u.used < i → ∀ n l, RenamedTo u n l →
    ∃ b, Exports D u.used n b
  excluded : ∀ u ∈ (D i).uses, NoRenameExcluded u
  spelled : ∀ u ∈ (D i).uses, ∀ l, SpelledAlike sp u l

/-- The binding that the name `l` stands for in module `i`. -/
def StandsFor (D : Nat → Decl) (i : Nat) (l : Name) (b : Binding) : Prop :=
  Imported D i l b ∨ (∀ b', ¬ Imported D i l b') ∧ b = ⟨i, l⟩

/-- The warning is called for by the definition of module `i`. -/
def Warranted (D : Nat → Decl) (i : Nat) : Note → Prop
  | Note.usedNotFound k => ∃ u ∈ (D i).uses, u.used = k ∧ ¬ k < i
  | Note.clash l b b' => b ≠ b' ∧ Imported D i l b ∧ Imported D i l b'
  | Note.exportConflict n b => n ∈ (D i).exports ∧ Imported D i n b
  | Note.createConflict n b => n ∈ (D i).creates ∧ Imported D i n b

end Verif.Names
