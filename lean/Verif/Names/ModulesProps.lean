import Verif.Names.DefineLemmas

namespace Verif.Names

variable {D : Nat → Decl} {sp : Name → List Char}

theorem step_ok (o : Order) (hsp : Spelling sp) {s : St} (op : Op)
    (hc : ∀ j, j < (step o sp D s op).count → Clean sp D j) (h : Inv D s)
    (hle : s.count ≤ (step o sp D s op).count) :
    Inv D (step o sp D s op) := by
  cases op with
  | define =>
    have hcount : (step o sp D s Op.define).count = s.count + 1 := rfl
    exact (defineModule_ok o hsp (fun j hj => hc j (by rw [hcount]; exact hj)) h).1
  | lookup i n =>
    have hc' : ∀ j, j < s.count → Clean sp D j := fun j hj => hc j (by omega)
    unfold step
    dsimp only
    split
    · next hi => exact (lookupBinding_ok o hsp hi hc' h n).1
    · exact h
  | lookupExp i n =>
    have hc' : ∀ j, j < s.count → Clean sp D j := fun j hj => hc j (by omega)
    unfold step
    dsimp only
    split
    · next hi => exact (lookupExported_ok o hsp hi hc' h n).1
    · exact h

theorem passNames_count (i : Nat) (u : Use) :
    ∀ (ns : List Name) (s : St), (passNames sp i u ns s).count = s.count := by
  intro ns
  induction ns with
  | nil => intro s; rfl
  | cons n ns ih =>
    intro s
    unfold passNames
    split
    · exact ih s
    · split
      · exact ih _
      · rfl

theorem passTable_count (i : Nat) (u : Use) :
    ∀ (ps : List (Name × Binding)) (s : St),
      (passTable sp i u ps s).count = s.count := by
  intro ps
  induction ps with
  | nil => intro s; rfl
  | cons p ps ih =>
    intro s
    unfold passTable
    exact ih _

theorem exportedImports_count (o : Order) :
    ∀ (depth i : Nat) (s : St),
      (exportedImports o sp depth i s).count = s.count := by
  intro depth
  induction depth with
  | zero => intro i s; rfl
  | succ depth ih =>
    intro i s
    unfold exportedImports
    split
    · rfl
    · dsimp only
      generalize ((s.upd i (fun m => { m with reexp := some [] })).mods i).uses = us
      suffices hf : ∀ (us : List Use) (s' : St),
          (us.foldl (passUse o sp depth i) s').count = s'.count from
        hf us _
      intro us
      induction us with
      | nil => intro s'; rfl
      | cons u us ihu =>
        intro s'
        rw [List.foldl_cons, ihu]
        unfold passUse
        split
        · dsimp only
          rw [passTable_count, ih, passNames_count]
        · rfl

theorem lookupExported_count (o : Order) (s : St) (i : Nat) (n : Name) :
    (lookupExported o sp s i n).1.count = s.count := by
  unfold lookupExported
  split
  · rfl
  · exact exportedImports_count o _ _ _

theorem lookupImported_count (o : Order) (l : Name) :
    ∀ (us : List Use) (s : St),
      (lookupImported o sp us s l).1.count = s.count := by
  intro us
  induction us with
  | nil => intro s; rfl
  | cons u us ih =>
    intro s
    unfold lookupImported
    split
    · exact ih s
    · split
      · dsimp only
        split
        · exact lookupExported_count o _ _ _
        · rw [ih]
          exact lookupExported_count o _ _ _
      · exact ih s

theorem lookupBinding_count (o : Order) (s : St) (i : Nat) (l : Name) :
    (lookupBinding o sp s i l).1.count = s.count := by
  have h : (lookupName o sp s i l).1.count = s.count := by
    unfold lookupName
    split
    · rfl
    · exact lookupImported_count o l _ _
  unfold lookupBinding
  dsimp only
  split
  · exact h
  · exact h

theorem step_count (o : Order) (s : St) (op : Op) :
    s.count ≤ (step o sp D s op).count := by
  cases op with
  | define => exact Nat.le_succ _
  | lookup i n =>
    unfold step
    dsimp only
    split
    · rw [lookupBinding_count]
      exact Nat.le_refl _
    · exact Nat.le_refl _
  | lookupExp i n =>
    unfold step
    dsimp only
    split
    · rw [lookupExported_count]
      exact Nat.le_refl _
    · exact Nat.le_refl _

theorem fold_count (o : Order) :
    ∀ (ops : List Op) (s : St),
      s.count ≤ (ops.foldl (step o sp D) s).count := by
  intro ops
  induction ops with
  | nil => intro s; exact Nat.le_refl _
  | cons op ops ih =>
    intro s
    exact Nat.le_trans (step_count o s op) (ih _)

theorem run_inv (o : Order) (hsp : Spelling sp) (ops : List Op)
    (hc : ∀ j, j < (run o sp D ops).count → Clean sp D j) :
    Inv D (run o sp D ops) := by
  unfold run at *
  have h0 : Inv D ({} : St) := ⟨fun j hj => absurd hj (Nat.not_lt_zero j), rfl⟩
  generalize ({} : St) = s at h0 hc
  induction ops generalizing s with
  | nil => exact h0
  | cons op ops ih =>
    rw [List.foldl_cons] at hc ⊢
    apply ih _ _ hc
    apply step_ok o hsp op _ h0 (step_count o s op)
    intro j hj
    exact hc j (Nat.lt_of_lt_of_le hj (fold_count o ops _))

/-- C123: in a library of clean definitions, whatever was defined and looked
up before and in whatever order the compiler goes through its tables, a name
used in a module stands for the binding the definitions say: the one it
imports under that name or, where it imports none, its own. -/
theorem lookup_right (o : Order) (hsp : Spelling sp) (ops : List Op)
    (hc : ∀ j, j < (run o sp D ops).count → Clean sp D j)
    {i : Nat} (hi : i < (run o sp D ops).count) (l : Name) :
    StandsFor D i l (lookupBinding o sp (run o sp D ops) i l).2 :=
  (lookupBinding_ok o hsp hi hc (run_inv o hsp ops hc) l).2.2

/-- C123: the names a module offers its users are the ones the definitions
say it exports. -/
theorem exported_right (o : Order) (hsp : Spelling sp) (ops : List Op)
    (hc : ∀ j, j < (run o sp D ops).count → Clean sp D j)
    {i : Nat} (hi : i < (run o sp D ops).count) (n : Name) (b : Binding) :
    (lookupExported o sp (run o sp D ops) i n).2 = some b ↔ Exports D i n b :=
  (lookupExported_ok o hsp hi hc (run_inv o hsp ops hc) n).2.2.2 b

/-- C123: none of the errors the compiler could run into on the way comes
up. -/
theorem no_error (o : Order) (hsp : Spelling sp) (ops : List Op)
    (hc : ∀ j, j < (run o sp D ops).count → Clean sp D j) :
    (run o sp D ops).err = false :=
  (run_inv o hsp ops hc).err

/-- C123: two lookups of the same name in the same module find the same
binding, whatever was done in between or instead. -/
theorem lookup_same (o o' : Order) (hsp : Spelling sp) (ops ops' : List Op)
    (hc : ∀ j, Clean sp D j)
    {i : Nat} (hi : i < (run o sp D ops).count)
    (hi' : i < (run o' sp D ops').count) (l : Name) :
    (lookupBinding o sp (run o sp D ops) i l).2 =
      (lookupBinding o' sp (run o' sp D ops') i l).2 := by
  rcases lookup_right o hsp ops (fun j _ => hc j) hi l with h | ⟨h, e⟩
  · rcases lookup_right o' hsp ops' (fun j _ => hc j) hi' l with h' | ⟨h', _⟩
    · exact (hc i).one l _ _ h h'
    · exact absurd h (h' _)
  · rcases lookup_right o' hsp ops' (fun j _ => hc j) hi' l with h' | ⟨_, e'⟩
    · exact absurd h' (h _)
    · rw [e, e']

/-! ### Warnings -/

theorem define_notes (o : Order) (s : St) (x : Note) :
    x ∈ (defineModule o sp s (D s.count)).2 ↔
      x ∈ (computeImports o sp s (D s.count).uses).notes ∨
      (∃ n ∈ (D s.count).exports, ∃ b,
        get (computeImports o sp s (D s.count).uses).table n = some b ∧
        x = Note.exportConflict n b) ∨
      (∃ n ∈ (D s.count).creates, ∃ b,
        get (computeImports o sp s (D s.count).uses).table n = some b ∧
        x = Note.createConflict n b) := by
  unfold defineModule
  dsimp only
  rw [exportFold_notes, exportFold_notes, or_assoc]

/-- C124: every warning given when a module is defined is called for. -/
theorem warnings_sound (o : Order) (hsp : Spelling sp) (ops : List Op)
    (hc : ∀ j, j < (run o sp D ops).count → Clean sp D j) (x : Note)
    (hx : x ∈ (defineModule o sp (run o sp D ops)
      (D (run o sp D ops).count)).2) :
    Warranted D (run o sp D ops).count x := by
  obtain ⟨a1, _⟩ := computeImports_ok (D := D) o hsp hc (run_inv o hsp ops hc)
  rw [define_notes] at hx
  rcases hx with hx | ⟨n, hn, b, hb, rfl⟩ | ⟨n, hn, b, hb, rfl⟩
  · exact a1.notes x hx
  · exact ⟨hn, a1.sound n b hb⟩
  · exact ⟨hn, a1.sound n b hb⟩

/-- C124: where a module imports two bindings under one name, or a name it
also exports or creates, or uses a module that is not there, a warning about
it is given. -/
theorem warnings_complete (o : Order) (hsp : Spelling sp) (ops : List Op)
    (hc : ∀ j, j < (run o sp D ops).count → Clean sp D j) :
    let s := run o sp D ops
    let notes := (defineModule o sp s (D s.count)).2
    (∀ l b b', b ≠ b' → Imported D s.count l b → Imported D s.count l b' →
      ∃ first other, Note.clash l first other ∈ notes) ∧
    (∀ n ∈ (D s.count).exports, ∀ b, Imported D s.count n b →
      ∃ b', Note.exportConflict n b' ∈ notes) ∧
    (∀ n ∈ (D s.count).creates, ∀ b, Imported D s.count n b →
      ∃ b', Note.createConflict n b' ∈ notes) ∧
    (∀ u ∈ (D s.count).uses, ¬ u.used < s.count →
      Note.usedNotFound u.used ∈ notes) := by
  obtain ⟨_, _, _, a4, a5⟩ := computeImports_ok (D := D) o hsp hc
    (run_inv o hsp ops hc)
  dsimp only
  simp only [define_notes]
  refine ⟨?_, ?_, ?_, ?_⟩
  · intro l b b' hne hb hb'
    obtain ⟨f, h1, h2⟩ := a4 l b hb
    obtain ⟨f', h1', h2'⟩ := a4 l b' hb'
    rw [h1] at h1'
    cases h1'
    rcases h2 with rfl | h2
    · rcases h2' with rfl | h2'
      · exact absurd rfl hne
      · exact ⟨_, _, Or.inl h2'⟩
    · exact ⟨_, _, Or.inl h2⟩
  · intro n hn b hb
    obtain ⟨f, h1, _⟩ := a4 n b hb
    exact ⟨f, Or.inr (Or.inl ⟨n, hn, f, h1, rfl⟩)⟩
  · intro n hn b hb
    obtain ⟨f, h1, _⟩ := a4 n b hb
    exact ⟨f, Or.inr (Or.inr ⟨n, hn, f, h1, rfl⟩)⟩
  · intro u hu hlt
    exact Or.inl (a5 u hu hlt)

/-- C124: a definition that gives no warning is clean, but for the names its
clauses rename and the case they are written in. -/
theorem no_warning_clean (o : Order) (hsp : Spelling sp) (ops : List Op)
    (hc : ∀ j, j < (run o sp D ops).count → Clean sp D j)
    (hn : (defineModule o sp (run o sp D ops) (D (run o sp D ops).count)).2 = [])
    (hr : ∀ u ∈ (D (run o sp D ops).count).uses, ∀ n l, RenamedTo u n l →
      ∃ b, Exports D u.used n b)
    (hx : ∀ u ∈ (D (run o sp D ops).count).uses, NoRenameExcluded u)
    (hs : ∀ u ∈ (D (run o sp D ops).count).uses, ∀ l, SpelledAlike sp u l) :
    Clean sp D (run o sp D ops).count := by
  have h := warnings_complete (D := D) o hsp ops hc
  dsimp only at h
  obtain ⟨h1, h2, h3, _⟩ := h
  rw [hn] at h1 h2 h3
  refine ⟨?_, ?_, fun u hu _ => hr u hu, hx, hs⟩
  · intro l b b' hb hb'
    apply Classical.byContradiction
    intro hne
    obtain ⟨_, _, h⟩ := h1 l b b' hne hb hb'
    cases h
  · rintro n b (hm | hm) hb
    · obtain ⟨_, h⟩ := h2 n hm b hb
      cases h
    · obtain ⟨_, h⟩ := h3 n hm b hb
      cases h

/-! ### A library that meets the conditions -/

/-- Tables gone through in the order of their entries. -/
def inOrder : Order := ⟨id, id, fun _ _ => Iff.rfl, fun _ _ => Iff.rfl⟩

/-- Module 0 exports `a` and `b`; module 1 uses it, renames `a` to `x` and
passes `x` on, and creates `c`; module 2 uses module 0 with a prefix, and
module 1. -/
def sampleLib : Nat → Decl
  | 0 => { exports := [sym "a", sym "b"] }
  | 1 => { uses := [{ used := 0, rename := [(sym "a", sym "x")],
                      exports := some [sym "x"] }],
           creates := [sym "c"] }
  | 2 => { uses := [{ used := 0, pre := sym "p/" }, { used := 1 }],
           exports := [sym "d"] }
  | _ => {}

theorem sample_clean : ∀ j, Clean Subtype.val sampleLib j := by
  have h0 : Clean Subtype.val sampleLib 0 :=
    no_warning_clean (D := sampleLib) inOrder plain_spelling []
      (fun j hj => absurd hj (Nat.not_lt_zero j)) (by decide +kernel)
      (fun u hu => by cases hu) (fun u hu => by cases hu) (fun u hu => by cases hu)
  have h1 : Clean Subtype.val sampleLib 1 := by
    refine no_warning_clean (D := sampleLib) inOrder plain_spelling [Op.define] ?_
      (by decide +kernel) ?_ ?_ (fun u _ l h => h)
    · intro j hj
      have : j = 0 := by
        have : (run inOrder Subtype.val sampleLib [Op.define]).count = 1 := rfl
        omega
      subst this
      exact h0
    · intro u hu n l hr
      have hu' : u = { used := 0, rename := [(sym "a", sym "x")],
                       exports := some [sym "x"] } := List.mem_singleton.1 hu
      subst hu'
      rcases hr with hr | ⟨_, h, _⟩
      · have := List.mem_singleton.1 hr
        cases this
        exact ⟨_, Exports.own (Or.inl List.mem_cons_self)⟩
      · cases h
    · intro u hu n l hr
      have hu' : u = { used := 0, rename := [(sym "a", sym "x")],
                       exports := some [sym "x"] } := List.mem_singleton.1 hu
      subst hu'
      simp [Selected]
  have hne : ∀ u ∈ (sampleLib 2).uses, ∀ n l, ¬ RenamedTo u n l := by
    intro u hu n l hr
    have hu' : u = { used := 0, pre := sym "p/" } ∨ u = { used := 1 } := by
      simpa [sampleLib] using hu
    rcases hu' with rfl | rfl
    · rcases hr with hr | ⟨_, h, _⟩
      · cases hr
      · cases h
    · rcases hr with hr | ⟨_, h, _⟩
      · cases hr
      · cases h
  have h2 : Clean Subtype.val sampleLib 2 := by
    refine no_warning_clean (D := sampleLib) inOrder plain_spelling
      [Op.define, Op.define] ?_ (by decide +kernel)
      (fun u hu n l hr => absurd hr (hne u hu n l))
      (fun u hu n l hr => absurd hr (hne u hu n l)) (fun u _ l h => h)
    intro j hj
    have hcount : (run inOrder Subtype.val sampleLib
        [Op.define, Op.define]).count = 2 := rfl
    have : j = 0 ∨ j = 1 := by omega
    rcases this with rfl | rfl
    · exact h0
    · exact h1
  intro j
  match j with
  | 0 => exact h0
  | 1 => exact h1
  | 2 => exact h2
  | j + 3 =>
    refine ⟨?_, ?_, ?_, ?_, ?_⟩
    · rintro l b b' ⟨u, hu, _⟩
      cases hu
    · rintro n b (h | h)
      · cases h
      · cases h
    · intro u hu
      cases hu
    · intro u hu
      cases hu
    · intro u hu
      cases hu

example :
    let s := run inOrder Subtype.val sampleLib [Op.define, Op.define, Op.define]
    s.count = 3 ∧
    (lookupBinding inOrder Subtype.val s 2 (sym "p/a")).2 = ⟨0, sym "a"⟩ ∧
    (lookupBinding inOrder Subtype.val s 2 (sym "x")).2 = ⟨0, sym "a"⟩ ∧
    (lookupBinding inOrder Subtype.val s 2 (sym "c")).2 = ⟨1, sym "c"⟩ ∧
    (lookupBinding inOrder Subtype.val s 2 (sym "a")).2 = ⟨2, sym "a"⟩ ∧
    (lookupExported inOrder Subtype.val s 1 (sym "x")).2 = some ⟨0, sym "a"⟩ ∧
    (lookupExported inOrder Subtype.val s 1 (sym "b")).2 = none := by
  decide +kernel

/-! ### Where the compiler is at odds with its own account -/

/-- Modules 0 and 1 both export `a`; module 2 uses both and passes `a` on. -/
def clashLib : Nat → Decl
  | 0 => { exports := [sym "a"] }
  | 1 => { exports := [sym "a"] }
  | 2 => { uses := [{ used := 0, exports := some [sym "a"] },
                    { used := 1, exports := some [sym "a"] }] }
  | _ => {}

/-- C123 violated: the warning about the clash says that the first of the two
bindings will be used, and it is until another module looks at what the
module exports; from then on the same name stands for the other one. -/
theorem clash_history_violated :
    ∃ (D : Nat → Decl) (ops : List Op) (i j : Nat) (l : Name) (first other : Binding),
      first ≠ other ∧
      Note.clash l first other ∈ (defineModule inOrder Subtype.val
        (run inOrder Subtype.val D [Op.define, Op.define]) (D 2)).2 ∧
      (lookupBinding inOrder Subtype.val (run inOrder Subtype.val D ops) i l).2 =
        first ∧
      (lookupBinding inOrder Subtype.val
        (run inOrder Subtype.val D (ops ++ [Op.lookup i l, Op.lookupExp j l])) i l).2 =
        other := by
  refine ⟨clashLib, [Op.define, Op.define, Op.define], 2, 2, sym "a",
    ⟨0, sym "a"⟩, ⟨1, sym "a"⟩, ?_⟩
  decide +kernel

/-- Module 0 exports `b`; module 1 uses it and renames an `a` that is not
there to `b`. -/
def missingLib : Nat → Decl
  | 0 => { exports := [sym "b"] }
  | 1 => { uses := [{ used := 0, rename := [(sym "a", sym "b")] }] }
  | _ => {}

/-- C123 violated: the clause still imports `b` under its own name, and no
warning is given, but the name `b` in the using module does not stand for
it. -/
theorem missing_rename_violated :
    ∃ (D : Nat → Decl) (l : Name) (b : Binding),
      Imported D 1 l b ∧
      (defineModule inOrder Subtype.val
        (run inOrder Subtype.val D [Op.define]) (D 1)).2 = [] ∧
      (lookupBinding inOrder Subtype.val
        (run inOrder Subtype.val D [Op.define, Op.define]) 1 l).2 ≠ b := by
  refine ⟨missingLib, sym "b", ⟨0, sym "b"⟩, ?_, by decide +kernel,
    by decide +kernel⟩
  refine ⟨_, List.mem_cons_self, by decide, sym "b",
    Exports.own (Or.inl List.mem_cons_self), ?_, Or.inr ⟨?_, by decide +kernel⟩⟩
  · exact List.not_mem_nil
  · rintro l' (h | ⟨_, h, _⟩)
    · exact absurd (congrArg Prod.fst (List.mem_singleton.1 h))
        (by decide +kernel : sym "b" ≠ sym "a")
    · cases h

end Verif.Names
