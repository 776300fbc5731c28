import Verif.Names.ModulesProps

namespace Verif.Names

variable {sp : Name → List Char} {D : Nat → Decl}

/-- A name that is imported as well as exported or created. -/
theorem exportFold_conflict {i : Nat} (kind : Name → Binding → Note) (imports : List (Name × Binding)) (n : Name)
    (b : Binding) (hg : get imports n = some b) :
    ∀ (ns : List Name) (r : St × List Note), get (r.1.mods i).locals n = none → (r.1.mods i).reexp = none →
      let r' := ns.foldl (exportOne i kind imports) r
      get (r'.1.mods i).locals n = none ∧ (r'.1.mods i).reexp = none ∧
        (n ∈ ns ∨ get (r.1.mods i).cache n = some (some b) → get (r'.1.mods i).cache n = some (some b)) := by
  intro ns
  induction ns with
  | nil => intro r h1 h2; exact ⟨h1, h2, fun h => by simpa using h⟩
  | cons k ns ih =>
    intro r h1 h2
    have hone : get ((exportOne i kind imports r k).1.mods i).locals n = none ∧
        ((exportOne i kind imports r k).1.mods i).reexp = none ∧
        (n = k ∨ get (r.1.mods i).cache n = some (some b) →
          get ((exportOne i kind imports r k).1.mods i).cache n = some (some b)) := by
      unfold exportOne
      cases hk : get imports k with
      | some b' =>
        dsimp only
        rw [upd_self]
        refine ⟨h1, h2, ?_⟩
        dsimp only
        by_cases hnk : n = k
        · subst hnk
          rw [hg] at hk
          cases hk
          intro _
          rw [get_put, if_pos rfl]
        · rintro (h | h)
          · exact absurd h hnk
          · rw [get_put, if_neg hnk]; exact h
      | none =>
        have hnk : n ≠ k := by
          rintro rfl
          rw [hg] at hk
          cases hk
        dsimp only
        rw [upd_self]
        dsimp only
        split
        · exact ⟨h1, h2, fun h => h.resolve_left hnk⟩
        · unfold defineName
          rw [upd_self]
          dsimp only
          refine ⟨?_, h2, fun h => ?_⟩
          · rw [get_put, if_neg hnk]; exact h1
          · rw [get_remove, if_neg hnk]; exact h.resolve_left hnk
    obtain ⟨i1, i2, i3⟩ := ih (exportOne i kind imports r k) hone.1 hone.2.1
    refine ⟨i1, i2, fun h => i3 ?_⟩
    rcases h with h | h
    · rcases List.mem_cons.1 h with h | h
      · exact .inr (hone.2.2 (.inl h))
      · exact .inl h
    · exact .inr (hone.2.2 (.inr h))

/-- C124: where a clause exports or creates a name that the module imports, the warning is the only effect of the
clause: the name stands for what is imported, the binding of the warning. -/
theorem conflict_imported (o : Order) (hsp : Spelling sp) (ops : List Op)
    (hc : ∀ j, j < (run o sp D ops).count → Clean sp D j) (n : Name) (b : Binding)
    (hn : n ∈ (D (run o sp D ops).count).exports ∨ n ∈ (D (run o sp D ops).count).creates)
    (hb : Imported D (run o sp D ops).count n b) :
    let s := run o sp D ops
    let r := defineModule o sp s (D s.count)
    let found := (lookupBinding o sp r.1 s.count n).2
    Imported D s.count n found ∧ (Note.exportConflict n found ∈ r.2 ∨ Note.createConflict n found ∈ r.2) := by
  obtain ⟨a1, _, a3, a4, _⟩ := computeImports_ok (D := D) o hsp hc (run_inv o hsp ops hc)
  obtain ⟨f, hf, _⟩ := a4 n b hb
  dsimp only
  have hfound : (lookupBinding o sp (defineModule o sp (run o sp D ops) (D (run o sp D ops).count)).1
      (run o sp D ops).count n).2 = f := by
    generalize run o sp D ops = s at *
    have key : lookupTables ((defineModule o sp s (D s.count)).1.mods s.count) n = some (some f) := by
      unfold defineModule
      dsimp only
      generalize computeImports o sp s (D s.count).uses = r at *
      obtain ⟨b1, b2, b3⟩ := exportFold_conflict (i := s.count) Note.exportConflict r.table n f hf (D s.count).exports
        (r.st.upd s.count (fun _ =>
          ({ uses := (D s.count).uses.filter (fun u => decide (u.used < s.count)) } : Mod)), r.notes)
        (by rw [upd_self]; rfl) (by rw [upd_self])
      obtain ⟨c1, c2, c3⟩ := exportFold_conflict (i := s.count) Note.createConflict r.table n f hf (D s.count).creates
        _ b1 b2
      unfold lookupTables
      rw [c1, c2]
      dsimp only [Option.bind]
      exact c3 (hn.elim (fun h => .inr (b3 (.inl h))) .inl)
    unfold lookupBinding lookupName
    rw [key]
  rw [hfound]
  refine ⟨a1.sound n f hf, ?_⟩
  simp only [define_notes]
  rcases hn with hn | hn
  · exact .inl (.inr (.inl ⟨n, hn, f, hf, rfl⟩))
  · exact .inr (.inr (.inr ⟨n, hn, f, hf, rfl⟩))

/-- Module 1 exports the name `a` that it imports from module 0. -/
def conflictLib : Nat → Decl
  | 0 => { exports := [sym "a"] }
  | 1 => { uses := [{ used := 0 }], exports := [sym "a", sym "b"] }
  | _ => {}

example :
    let s := run inOrder Subtype.val conflictLib [Op.define]
    (∀ j, j < s.count → Clean Subtype.val conflictLib j) ∧
    sym "a" ∈ (conflictLib s.count).exports ∧ Imported conflictLib s.count (sym "a") ⟨0, sym "a"⟩ ∧
    (defineModule inOrder Subtype.val s (conflictLib s.count)).2 = [Note.exportConflict (sym "a") ⟨0, sym "a"⟩] := by
  have hcount : (run inOrder Subtype.val conflictLib [Op.define]).count = 1 := rfl
  refine ⟨?_, ?_, ?_, by decide +kernel⟩
  · intro j hj
    have : j = 0 := by omega
    subst this
    refine ⟨?_, ?_, ?_, ?_, ?_⟩
    · rintro l b b' ⟨u, hu, _⟩
      cases hu
    · rintro n b - ⟨u, hu, _⟩
      cases hu
    · intro u hu
      cases hu
    · intro u hu
      cases hu
    · intro u hu
      cases hu
  · rw [hcount]; decide +kernel
  · rw [hcount]
    refine ⟨{ used := 0 }, by simp [conflictLib], Nat.zero_lt_one, sym "a",
      Exports.own (.inl (by simp [conflictLib])), ?_⟩
    simp [Visible, Selected, RenamedTo]
    rfl

end Verif.Names
