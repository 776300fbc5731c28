import Verif.Names.FilterSpec

namespace Verif.Names

theorem Spelling.val {sp : Name → List Char} (hsp : Spelling sp) (n : Name) :
    (sp n).map Char.toLower = n.1 := congrArg Subtype.val (hsp n)

theorem mem_pairs (is : List Item) (o n : Name) :
    (o, n) ∈ pairs is ↔ Item.renamed o n ∈ is := by
  induction is with
  | nil => simp [pairs]
  | cons i is ih => cases i <;> simp [pairs, ih]

theorem mem_plains (is : List Item) (n : Name) :
    n ∈ plains is ↔ Item.plain n ∈ is := by
  induction is with
  | nil => simp [plains]
  | cons i is ih => cases i <;> simp [plains, ih]

theorem mem_removeDuplicates (l : List Name) (x : Name) :
    x ∈ removeDuplicates l ↔ x ∈ l := by
  unfold removeDuplicates
  rw [List.mem_reverse]
  suffices h : ∀ (acc : List Name),
      x ∈ l.foldl (fun new x => if x ∈ new then new else x :: new) acc ↔
        x ∈ acc ∨ x ∈ l by simpa using h []
  induction l with
  | nil => simp
  | cons a l ih =>
    intro acc
    simp only [List.foldl_cons]
    rw [ih]
    split <;> simp <;> grind

theorem mem_renameSpec (u : Use) (o n : Name) :
    (o, n) ∈ (ensureValid u).renameSpec ↔ RenamedTo u o n := by
  unfold ensureValid RenamedTo
  cases h : u.imports with
  | none => simp
  | some spec => simp [mem_pairs]

theorem pre_ensureValid (u : Use) : (ensureValid u).pre = u.pre := by
  unfold ensureValid
  cases u.imports <;> rfl

theorem exportSpec_ensureValid (u : Use) :
    (ensureValid u).exportSpec = u.exports := by
  unfold ensureValid
  cases u.imports <;> rfl

theorem mem_steps (u : Use) (keys : List Name) (n : Name) :
    n ∈ excludeStep (ensureValid u) (importStep (ensureValid u) keys) ↔
      n ∈ keys ∧ Selected u n := by
  unfold Selected excludeStep importStep
  cases h : u.imports with
  | none =>
    simp only [ensureValid, h]
    split
    · next h' => simp [List.isEmpty_iff.1 h']
    · simp
  | some items =>
    simp only [ensureValid, h]
    simp only [List.isEmpty_nil, if_true, List.mem_filter, decide_eq_true_eq,
      mem_removeDuplicates, List.mem_append, mem_plains, List.map_append,
      List.mem_map]
    constructor
    · rintro ⟨hk, h1 | ⟨⟨a, b⟩, h1, rfl⟩ | ⟨⟨a, b⟩, h1, rfl⟩⟩
      · exact ⟨hk, Or.inl h1⟩
      · exact ⟨hk, Or.inr ⟨b, Or.inl h1⟩⟩
      · exact ⟨hk, Or.inr ⟨b, Or.inr ⟨items, h, (mem_pairs _ _ _).1 h1⟩⟩⟩
    · rintro ⟨hk, h1 | ⟨l, h1 | ⟨items', h2, h1⟩⟩⟩
      · exact ⟨hk, Or.inl h1⟩
      · exact ⟨hk, Or.inr (Or.inl ⟨_, h1, rfl⟩)⟩
      · rw [h] at h2
        cases h2
        exact ⟨hk, Or.inr (Or.inr ⟨_, (mem_pairs _ _ _).2 h1, rfl⟩)⟩

theorem mem_fold {f : Name → List Name} (keys : List Name) (x : Name) :
    x ∈ keys.foldl (fun acc key => f key ++ acc) [] ↔ ∃ k ∈ keys, x ∈ f k := by
  suffices h : ∀ acc, x ∈ keys.foldl (fun acc key => f key ++ acc) acc ↔
      x ∈ acc ∨ ∃ k ∈ keys, x ∈ f k by simpa using h []
  induction keys with
  | nil => simp
  | cons k ks ih =>
    intro acc
    simp only [List.foldl_cons]
    rw [ih, List.mem_append]
    constructor
    · rintro ((h | h) | ⟨k', h1, h2⟩)
      · exact Or.inr ⟨k, List.mem_cons_self, h⟩
      · exact Or.inl h
      · exact Or.inr ⟨k', List.mem_cons_of_mem _ h1, h2⟩
    · rintro (h | ⟨k', h1, h2⟩)
      · exact Or.inl (Or.inr h)
      · rcases List.mem_cons.1 h1 with rfl | h1
        · exact Or.inl (Or.inl h2)
        · exact Or.inr ⟨k', h1, h2⟩

theorem mem_aliases {sp : Name → List Char} (hsp : Spelling sp) (u : Use)
    (n l : Name) :
    l ∈ aliases sp (ensureValid u) n ↔
      RenamedTo u n l ∨ (∀ l', ¬ RenamedTo u n l') ∧ l.1 = u.pre.1 ++ n.1 := by
  have hmem : ∀ l', l' ∈ (((ensureValid u).renameSpec.filter
      (fun r => decide (n = r.1))).map Prod.snd) ↔ RenamedTo u n l' := by
    intro l'
    rw [← mem_renameSpec]
    simp only [List.mem_map, List.mem_filter, decide_eq_true_eq]
    constructor
    · rintro ⟨⟨a, b⟩, ⟨h1, h2⟩, rfl⟩
      simp only at h2
      subst h2
      exact h1
    · intro h
      exact ⟨_, ⟨h, rfl⟩, rfl⟩
  unfold aliases
  dsimp only
  split
  · next h =>
    have he := List.isEmpty_iff.1 h
    have hno : ∀ l', ¬ RenamedTo u n l' := by
      intro l' hl
      have := (hmem l').2 hl
      rw [he] at this
      cases this
    have : (symbol (sp (ensureValid u).pre ++ sp n)).1 = u.pre.1 ++ n.1 := by
      rw [pre_ensureValid]
      show List.map _ _ = _
      rw [List.map_append, hsp.val, hsp.val]
    rw [List.mem_singleton, Subtype.ext_iff, this]
    simp [hno]
  · next h =>
    rw [List.mem_reverse, hmem]
    constructor
    · exact Or.inl
    · rintro (h1 | ⟨h1, _⟩)
      · exact h1
      · exfalso
        apply h
        rw [List.isEmpty_iff]
        apply List.eq_nil_iff_forall_not_mem.2
        intro l' hl
        exact h1 l' ((hmem l').1 hl)

theorem spelling_nil {sp : Name → List Char} (hsp : Spelling sp) (n : Name) :
    (sp n).isEmpty = true ↔ n.1 = [] := by
  rw [← hsp.val n]
  simp

/-- C122: the names under which a used name is seen through a `use` clause
are the ones the clause says. -/
theorem filter_names {sp : Name → List Char} (hsp : Spelling sp) (u : Use)
    (n l : Name) : l ∈ filterName sp u n ↔ Visible u n l := by
  unfold filterName keyToFiltered
  dsimp only
  split
  · next h =>
    simp only [Bool.and_eq_true, List.isEmpty_iff] at h
    have hr : ∀ l', ¬ RenamedTo u n l' := by
      intro l' hl
      have := (mem_renameSpec u n l').2 hl
      rw [h.1] at this
      cases this
    have hp : u.pre.1 = [] := by
      rw [← pre_ensureValid]
      exact (spelling_nil hsp _).1 (by simp [h.2])
    rw [mem_steps]
    unfold Visible
    simp only [List.mem_singleton, hr, not_false_eq_true, implies_true,
      true_and, false_or, hp, List.nil_append]
    constructor
    · rintro ⟨rfl, h1⟩
      exact ⟨h1, rfl⟩
    · rintro ⟨h1, h2⟩
      have := Subtype.ext h2
      subst this
      exact ⟨rfl, h1⟩
  · unfold renamingExpander
    rw [mem_fold]
    simp only [mem_steps, mem_aliases hsp, List.mem_singleton]
    unfold Visible
    constructor
    · rintro ⟨k, ⟨rfl, h1⟩, h2⟩
      exact ⟨h1, h2⟩
    · rintro ⟨h1, h2⟩
      exact ⟨n, ⟨rfl, h1⟩, h2⟩

/-- C122: the names a clause passes on are the names under which the used
name is seen and that its `export:` option lists. -/
theorem filter_exported_names {sp : Name → List Char} (hsp : Spelling sp)
    (u : Use) (n l : Name) :
    l ∈ filterExportedName sp u n ↔ Visible u n l ∧ PassedOn u l := by
  unfold filterExportedName exportStep PassedOn
  rw [exportSpec_ensureValid]
  cases u.exports with
  | none => simpa [filterName] using filter_names hsp u n l
  | some ls =>
    simp only [List.mem_filter, decide_eq_true_eq]
    rw [← filter_names hsp u n l]
    rfl

theorem mem_unaliases {sp : Name → List Char} (hsp : Spelling sp) (u : Use)
    (n l : Name) (h : n ∈ unaliases sp (ensureValid u) l) :
    RenamedTo u n l ∨ (∀ l', ¬ RenamedTo u n l') ∧ l.1 = u.pre.1 ++ n.1 := by
  unfold unaliases at h
  dsimp only at h
  split at h
  · split at h
    · next hp =>
      split at h
      · cases h
      · next hn =>
        rw [List.mem_singleton] at h
        rw [← h] at hn
        right
        refine ⟨?_, ?_⟩
        · intro l' hl
          apply hn
          right
          exact List.mem_map.2 ⟨_, (mem_renameSpec u n l').2 hl, rfl⟩
        · rw [List.isPrefixOf_iff_prefix] at hp
          obtain ⟨t, ht⟩ := hp
          rw [pre_ensureValid] at ht h
          rw [← hsp.val l, h, ← ht, List.drop_left, List.map_append, hsp.val]
          rfl
    · cases h
  · left
    rw [List.mem_reverse, List.mem_map] at h
    obtain ⟨⟨a, b⟩, h1, rfl⟩ := h
    rw [List.mem_filter] at h1
    obtain ⟨h1, h2⟩ := h1
    simp only [decide_eq_true_eq] at h2
    subst h2
    exact (mem_renameSpec u _ _).1 h1

theorem filteredToKey_mem {sp : Name → List Char} (hsp : Spelling sp) (u : Use)
    (n l : Name) (h : n ∈ filteredToKey sp (ensureValid u) [l]) :
    Visible u n l := by
  unfold filteredToKey at h
  dsimp only at h
  rw [mem_steps] at h
  obtain ⟨h1, h2⟩ := h
  refine ⟨h2, ?_⟩
  split at h1
  · next h =>
    simp only [Bool.and_eq_true, List.isEmpty_iff] at h
    rw [List.mem_singleton] at h1
    subst h1
    right
    refine ⟨?_, ?_⟩
    · intro l' hl
      have := (mem_renameSpec u _ l').2 hl
      rw [h.1] at this
      cases this
    · have hp : u.pre.1 = [] := by
        rw [← pre_ensureValid]
        exact (spelling_nil hsp _).1 (by simp [h.2])
      simp [hp]
  · unfold unrenamingExpander at h1
    rw [mem_fold] at h1
    obtain ⟨k, hk, h1⟩ := h1
    rw [List.mem_singleton] at hk
    subst hk
    exact mem_unaliases hsp u n k h1

/-- C122: the name a local name is looked up by in the used namespace is one
that is seen under the local name. -/
theorem unfilter_sound {sp : Name → List Char} (hsp : Spelling sp) (u : Use)
    (n l : Name) (h : unfilterName sp u l = some n) : Visible u n l := by
  unfold unfilterName at h
  exact filteredToKey_mem hsp u n l (List.mem_of_mem_head? h)

/-- C122 (part): a local name under which some used name is seen is looked
up, by a name that is seen under it and that is renamed to it if any is.
Missing: a clause that excludes a name it renames
(`excluded_rename_violated`), and a name spelled with other case than the
prefix (`prefix_case_violated`). -/
theorem unfilter_complete_partial {sp : Name → List Char} (hsp : Spelling sp)
    (u : Use) (n l : Name) (hx : NoRenameExcluded u) (hs : SpelledAlike sp u l)
    (h : Visible u n l) :
    ∃ n', unfilterName sp u l = some n' ∧ Visible u n' l ∧
      ((∃ m, RenamedTo u m l) → RenamedTo u n' l) := by
  have key : ∃ n', n' ∈ filteredToKey sp (ensureValid u) [l] := by
    unfold filteredToKey
    dsimp only
    simp only [mem_steps]
    obtain ⟨hsel, hv⟩ := h
    split
    · next hc =>
      simp only [Bool.and_eq_true, List.isEmpty_iff] at hc
      have hp : u.pre.1 = [] := by
        rw [← pre_ensureValid]
        exact (spelling_nil hsp _).1 (by simp [hc.2])
      rcases hv with hv | ⟨_, hv⟩
      · have := (mem_renameSpec u _ _).2 hv
        rw [hc.1] at this
        cases this
      · rw [hp, List.nil_append] at hv
        have := Subtype.ext hv
        subst this
        exact ⟨_, by simp, hsel⟩
    · unfold unrenamingExpander
      simp only [mem_fold, List.mem_singleton]
      by_cases hr : ∃ m, RenamedTo u m l
      · obtain ⟨m, hm⟩ := hr
        refine ⟨m, ⟨l, rfl, ?_⟩, hx m l hm⟩
        have hin : m ∈ ((ensureValid u).renameSpec.filter
            (fun r => decide (l = r.2))).map Prod.fst :=
          List.mem_map.2 ⟨_, List.mem_filter.2
            ⟨(mem_renameSpec u m l).2 hm, by simp⟩, rfl⟩
        unfold unaliases
        dsimp only
        rw [if_neg, List.mem_reverse]
        · exact hin
        · intro he
          rw [List.isEmpty_iff.1 he] at hin
          cases hin
      · rcases hv with hv | ⟨hno, hv⟩
        · exact absurd ⟨n, hv⟩ hr
        · refine ⟨n, ⟨l, rfl, ?_⟩, hsel⟩
          unfold unaliases
          dsimp only
          rw [if_pos, if_pos]
          · have hpre : sp u.pre <+: sp l := hs ⟨n, hv.symm⟩
            obtain ⟨t, ht⟩ := hpre
            have hn : symbol ((sp l).drop (sp (ensureValid u).pre).length) = n := by
              rw [pre_ensureValid, ← ht, List.drop_left]
              have h1 : (sp l).map Char.toLower = u.pre.1 ++ n.1 := by
                rw [hsp.val, hv]
              rw [← ht, List.map_append, hsp.val] at h1
              exact Subtype.ext (List.append_cancel_left h1)
            rw [hn, if_neg, List.mem_singleton]
            rintro (h1 | h1)
            · unfold ensureValid at h1
              cases hi : u.imports with
              | none =>
                rw [hi] at h1
                unfold Selected at hsel
                rw [hi] at hsel
                exact hsel h1
              | some items =>
                rw [hi] at h1
                cases h1
            · obtain ⟨⟨a, b⟩, h2, h3⟩ := List.mem_map.1 h1
              simp only at h3
              subst h3
              exact hno b ((mem_renameSpec u _ _).1 h2)
          · rw [List.isPrefixOf_iff_prefix, pre_ensureValid]
            exact hs ⟨n, hv.symm⟩
          · rw [List.isEmpty_iff]
            apply List.eq_nil_iff_forall_not_mem.2
            intro m hm
            obtain ⟨⟨a, b⟩, h2, rfl⟩ := List.mem_map.1 hm
            obtain ⟨h2, h3⟩ := List.mem_filter.1 h2
            simp only [decide_eq_true_eq] at h3
            subst h3
            exact hr ⟨a, (mem_renameSpec u _ _).1 h2⟩
  obtain ⟨n₀, hn₀⟩ := key
  cases hh : filteredToKey sp (ensureValid u) [l] with
  | nil =>
    rw [hh] at hn₀
    cases hn₀
  | cons n' rest =>
    have hmem : n' ∈ filteredToKey sp (ensureValid u) [l] := by
      rw [hh]
      exact List.mem_cons_self
    refine ⟨n', ?_, filteredToKey_mem hsp u n' l hmem, ?_⟩
    · unfold unfilterName
      rw [hh]
      rfl
    · rintro ⟨m, hm⟩
      unfold filteredToKey at hmem
      dsimp only at hmem
      rw [mem_steps] at hmem
      have h1 := hmem.1
      have hin := (mem_renameSpec u m l).2 hm
      rw [if_neg] at h1
      · unfold unrenamingExpander at h1
        rw [mem_fold] at h1
        obtain ⟨k, hk, h1⟩ := h1
        rw [List.mem_singleton] at hk
        subst hk
        unfold unaliases at h1
        dsimp only at h1
        split at h1
        · next he =>
          exfalso
          have : m ∈ ((ensureValid u).renameSpec.filter
              (fun r => decide (k = r.2))).map Prod.fst :=
            List.mem_map.2 ⟨_, List.mem_filter.2 ⟨hin, by simp⟩, rfl⟩
          rw [List.isEmpty_iff.1 he] at this
          cases this
        · rw [List.mem_reverse, List.mem_map] at h1
          obtain ⟨⟨a, b⟩, h2, rfl⟩ := h1
          obtain ⟨h2, h3⟩ := List.mem_filter.1 h2
          simp only [decide_eq_true_eq] at h3
          subst h3
          exact (mem_renameSpec u _ _).1 h2
      · intro hc
        simp only [Bool.and_eq_true, List.isEmpty_iff] at hc
        rw [hc.1] at hin
        cases hin

/-- A symbol written as a string. -/
def sym (s : String) : Name := symbol s.toList

/-- `use m, import: { a, b => c }, rename: { d => e }, prefix: "p/",
export: { c }`. -/
def sampleUse : Use :=
  { used := 0
    imports := some [Item.plain (sym "a"), Item.renamed (sym "b") (sym "c")]
    rename := [(sym "d", sym "e")]
    pre := (sym "p/")
    exports := some [sym "c"] }

/-- The clause meets what `unfilter_complete_partial` asks, and maps names as
a user expects. -/
example : filterName Subtype.val sampleUse (sym "a") = [sym "p/a"] ∧
    filterName Subtype.val sampleUse (sym "b") = [sym "c"] ∧
    filterName Subtype.val sampleUse (sym "d") = [sym "e"] ∧
    filterName Subtype.val sampleUse (sym "x") = [] ∧
    filterExportedName Subtype.val sampleUse (sym "b") = [sym "c"] ∧
    filterExportedName Subtype.val sampleUse (sym "a") = [] ∧
    unfilterName Subtype.val sampleUse (sym "p/a") = some (sym "a") ∧
    unfilterName Subtype.val sampleUse (sym "c") = some (sym "b") ∧
    unfilterName Subtype.val sampleUse (sym "b") = none := by
  decide +kernel

example : NoRenameExcluded sampleUse := by
  intro n l h
  exact Or.inr ⟨l, h⟩

example : SpelledAlike Subtype.val sampleUse (sym "p/a") := fun h => h

/-- Spelling every symbol in lower case is possible. -/
theorem plain_spelling : Spelling Subtype.val := fun n => Subtype.ext n.2

/-- So is spelling one of them in capitals. -/
def oddSpelling (n : Name) : List Char :=
  if n = sym "foo/bar" then "FOO/bar".toList else n.1

theorem odd_spelling : Spelling oddSpelling := by
  intro n
  unfold oddSpelling
  split
  · next h =>
    subst h
    decide +kernel
  · exact plain_spelling n

/-- C122 violated: with `exclude: { a }, rename: { a => b }` the used name
`b` is seen under its own name, but the local name `b` is not found. -/
theorem excluded_rename_violated :
    ∃ (u : Use) (n l : Name), l ∈ filterName Subtype.val u n ∧
      unfilterName Subtype.val u l = none := by
  refine ⟨{ used := 0, exclude := [sym "a"],
            rename := [(sym "a", sym "b")] }, (sym "b"), (sym "b"), ?_⟩
  decide +kernel

/-- C122 violated: with `prefix: "foo/"`, the used name `bar` is seen under
`foo/bar`, but a `foo/bar` first spelled `FOO/bar` is not found. -/
theorem prefix_case_violated :
    ∃ (sp : Name → List Char) (u : Use) (n l : Name),
      Spelling sp ∧ l ∈ filterName sp u n ∧ unfilterName sp u l = none := by
  refine ⟨oddSpelling, { used := 0, pre := (sym "foo/") }, (sym "bar"),
    (sym "foo/bar"), odd_spelling, ?_⟩
  decide +kernel

end Verif.Names
