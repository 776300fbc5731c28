/-
The properties of iteration over several collections.
-/
import Verif.Iter.Multi
import Verif.Iter.MapIntoProps

namespace Verif.Iter

variable {α β κ : Type}

/-! ### Specification -/

/-- The element with a number as key. -/
def Coll.get : Coll α → Nat → Option α
  | .seq s, i => s i
  | .table t, i => assoc t (.int i)

/-- Iteration over collections: each key that all of them have occurs once, with the elements of all of them in
    the order of the collections. -/
structure Common {κ : Type} (gets : List (κ → Option α)) (rows : List (κ × List (Option α))) : Prop where
  once : (rows.map (·.1)).Nodup
  keys : ∀ k, k ∈ rows.map (·.1) ↔ ∀ g ∈ gets, ∃ a, g k = some a
  row : ∀ r ∈ rows, r.2 = gets.map (fun g => g r.1)

/-! ### Sequences -/

theorem multiSeq_eq (colls : List (Seq α)) : ∀ (n k st : Nat), n < k → (∀ i < n, ∀ c ∈ colls, ∃ a, c (st + i) = some a) → (∃ c ∈ colls, c (st + n) = none) →
    multiSeq colls k st = some ((List.range' st n).map (fun i => colls.map (fun c => c i)))
  | _, 0, _, h, _, _ => by omega
  | 0, k + 1, st, _, _, hno => by
    rw [multiSeq, if_pos]
    · rfl
    · obtain ⟨c, hc, hn⟩ := hno
      exact List.any_eq_true.mpr ⟨c, hc, by rw [Nat.add_zero] at hn; simp [hn]⟩
  | n + 1, k + 1, st, hk, hall, hno => by
    rw [multiSeq, if_neg, multiSeq_eq colls n k (st + 1) (by omega) (fun i hi c hc => by rw [show st + 1 + i = st + (i + 1) by omega]; exact hall (i + 1) (by omega) c hc)
      (by obtain ⟨c, hc, hn⟩ := hno; exact ⟨c, hc, by rw [show st + 1 + n = st + (n + 1) by omega]; exact hn⟩)]
    · rfl
    · intro h
      obtain ⟨c, hc, hn⟩ := List.any_eq_true.mp h
      obtain ⟨a, ha⟩ := hall 0 (by omega) c hc
      rw [Nat.add_zero] at ha
      simp [ha] at hn

/-- Several sequences: as many steps as the shortest has elements, and at each the elements there. -/
theorem multiple_sequences (colls : List (Seq α)) {n fuel : Nat} (hn : n < fuel) (hall : ∀ i < n, ∀ c ∈ colls, ∃ a, c i = some a) (hno : ∃ c ∈ colls, c n = none) :
    ∃ rows, multiSeq colls fuel 0 = some rows ∧ rows.length = n ∧ ∀ (i : Nat), i < n → rows[i]? = some (colls.map (fun c => c i)) := by
  refine ⟨_, multiSeq_eq colls n fuel 0 hn (by simpa using hall) (by simpa using hno), by simp, fun i hi => ?_⟩
  simp [List.getElem?_range', hi]

example : multiSeq [fun i => [1, 2, 3][i]?, fun i => some i] 5 0 = some [[some 1, some 0], [some 2, some 1], [some 3, some 2]] := by decide

/-! ### Tables -/

theorem commonRow_eq [DecidableEq κ] (index : Nat) (key : κ) (v : α) : ∀ (colls : List (Assoc κ α)) (i : Nat), (∀ c, i ≤ index → colls[index - i]? = some c → assoc c key = some v) →
    (∀ row, commonRow index key v colls i = some row → row.map some = colls.map (fun c => assoc c key)) ∧
    ((∃ row, commonRow index key v colls i = some row) ↔ ∀ c ∈ colls, ∃ a, assoc c key = some a)
  | [], i, _ => by simp [commonRow]
  | c :: colls, i, h => by
    have ih := commonRow_eq index key v colls (i + 1) (fun c hi hc => h c (by omega) (by
      rw [show index - i = (index - (i + 1)) + 1 by omega]; simpa using hc))
    have hv : i = index → assoc c key = some v := fun hi => h c (by omega) (by rw [hi, Nat.sub_self]; rfl)
    have key' : ∀ x, assoc c key = some x → (∀ row, (commonRow index key v colls (i + 1)).map (x :: ·) = some row → row.map some = (c :: colls).map (fun c => assoc c key)) ∧
        ((∃ row, (commonRow index key v colls (i + 1)).map (x :: ·) = some row) ↔ ∀ c' ∈ c :: colls, ∃ a, assoc c' key = some a) := by
      intro x hx
      cases hr : commonRow index key v colls (i + 1) with
      | none =>
        refine ⟨by simp, ?_⟩
        have : ¬ ∀ c ∈ colls, ∃ a, assoc c key = some a := by rw [← ih.2, hr]; simp
        simp only [Option.map_none, reduceCtorEq, exists_false, false_iff]
        exact fun hall => this (fun c' hc' => hall c' (List.mem_cons_of_mem _ hc'))
      | some row =>
        refine ⟨fun row' h' => ?_, ?_⟩
        · simp at h'
          subst h'
          rw [List.map_cons, List.map_cons, ih.1 row hr, hx]
        · have := ih.2.1 ⟨row, hr⟩
          simp only [Option.map_some]
          refine ⟨fun _ c' hc' => ?_, fun _ => ⟨_, rfl⟩⟩
          rcases List.mem_cons.mp hc' with rfl | hc'
          · exact ⟨x, hx⟩
          · exact this c' hc'
    rw [commonRow]
    by_cases hi : i = index
    · rw [if_pos hi]
      exact key' v (hv hi)
    · rw [if_neg hi]
      cases hx : assoc c key with
      | none =>
        refine ⟨by simp, ?_⟩
        simp only [reduceCtorEq, exists_false, false_iff]
        intro hall
        obtain ⟨a, ha⟩ := hall c (by simp)
        rw [hx] at ha; cases ha
      | some x => exact key' x hx

theorem multiTable_eq [DecidableEq κ] (colls : List (Assoc κ α)) (index : Nat) (it : Assoc κ α) (hit : colls[index]? = some it) (hd : Distinct it) :
    ∀ (rest : Assoc κ α), rest.Sublist it →
    ((multiTable colls index rest).map (·.1)).Sublist (rest.map (·.1)) ∧
    (∀ k, k ∈ (multiTable colls index rest).map (·.1) ↔ k ∈ rest.map (·.1) ∧ ∀ c ∈ colls, ∃ a, assoc c k = some a) ∧
    ∀ r ∈ multiTable colls index rest, r.2.map some = colls.map (fun c => assoc c r.1)
  | [], _ => by simp [multiTable]
  | (key, v) :: rest, hs => by
    obtain ⟨h1, h2, h3⟩ := multiTable_eq colls index it hit hd rest ((List.sublist_cons_self _ _).trans hs)
    have hv : assoc it key = some v := assoc_of_mem hd (key, v) (hs.subset (by simp))
    have hc := commonRow_eq index key v colls 0 (fun c _ hc => by rw [Nat.sub_zero, hit] at hc; cases hc; exact hv)
    rw [multiTable]
    cases hr : commonRow index key v colls 0 with
    | some row =>
      have hall := hc.2.1 ⟨row, hr⟩
      dsimp only
      refine ⟨by simpa using h1.cons_cons key, fun k => ?_, fun r hr' => ?_⟩
      · rw [List.map_cons, List.map_cons, List.mem_cons, List.mem_cons, h2 k]
        constructor
        · rintro (rfl | ⟨a, b⟩)
          · exact ⟨Or.inl rfl, hall⟩
          · exact ⟨Or.inr a, b⟩
        · rintro ⟨rfl | a, b⟩
          · exact Or.inl rfl
          · exact Or.inr ⟨a, b⟩
      · rcases List.mem_cons.mp hr' with rfl | hr'
        · exact hc.1 row hr
        · exact h3 r hr'
    | none =>
      have hall : ¬ ∀ c ∈ colls, ∃ a, assoc c key = some a := by rw [← hc.2, hr]; simp
      dsimp only
      refine ⟨by simpa using h1.cons key, fun k => ?_, h3⟩
      rw [List.map_cons, List.mem_cons, h2 k]
      constructor
      · rintro ⟨a, b⟩
        exact ⟨Or.inr a, b⟩
      · rintro ⟨rfl | a, b⟩
        · exact absurd b hall
        · exact ⟨a, b⟩

theorem minLoop_lt : ∀ (sizes : List Nat) (i index m : Nat), index < i → minLoop sizes i index m < i + sizes.length
  | [], i, index, m, h => by simpa [minLoop] using h
  | s :: sizes, i, index, m, h => by
    rw [minLoop]
    by_cases hs : s < m
    · rw [if_pos hs]
      have := minLoop_lt sizes (i + 1) i s (by omega)
      rw [List.length_cons]; omega
    · rw [if_neg hs]
      have := minLoop_lt sizes (i + 1) index m (by omega)
      rw [List.length_cons]; omega

theorem minimumCollection_lt {sizes : List Nat} (h : sizes ≠ []) : minimumCollection sizes < sizes.length := by
  cases sizes with
  | nil => exact absurd rfl h
  | cons s sizes =>
    have := minLoop_lt sizes 1 0 s (by omega)
    unfold minimumCollection
    rw [List.length_cons]
    dsimp only
    omega

/-- Several tables: the keys that all of them have. -/
theorem multiple_tables [DecidableEq κ] (colls : List (Assoc κ α)) (hne : colls ≠ []) (hd : ∀ c ∈ colls, Distinct c) :
    Common (colls.map assoc) ((multiTables colls).map (fun r => (r.1, r.2.map some))) := by
  have hlt : minimumCollection (colls.map List.length) < colls.length := by
    have := minimumCollection_lt (sizes := colls.map List.length) (by simpa using hne)
    simpa using this
  generalize hi : minimumCollection (colls.map List.length) = index at hlt
  have hget : colls[index]? = some colls[index] := List.getElem?_eq_getElem hlt
  have hdi := hd colls[index] (List.getElem_mem hlt)
  obtain ⟨h1, h2, h3⟩ := multiTable_eq colls index colls[index] hget hdi colls[index] (List.Sublist.refl _)
  have hm : multiTables colls = multiTable colls index colls[index] := by
    unfold multiTables
    dsimp only
    rw [hi, List.getD_eq_getElem?_getD, hget]
    rfl
  have hkeys : ((multiTables colls).map (fun r => (r.1, r.2.map some))).map (·.1) = (multiTables colls).map (·.1) := by
    rw [List.map_map]; rfl
  rw [hm] at hkeys ⊢
  refine ⟨?_, fun k => ?_, fun r hr => ?_⟩
  · rw [hkeys]
    exact h1.nodup hdi
  · rw [hkeys, h2 k]
    simp only [List.mem_map, forall_exists_index, and_imp, forall_apply_eq_imp_iff₂]
    refine ⟨fun h => h.2, fun h => ⟨?_, h⟩⟩
    obtain ⟨a, ha⟩ := h colls[index] (List.getElem_mem hlt)
    have := assoc_mem.2 ⟨a, ha⟩
    simpa using this
  · obtain ⟨r', hr', rfl⟩ := List.mem_map.mp hr
    dsimp only
    rw [h3 r' hr', List.map_map]
    rfl

example : multiTables [[(1, 10), (2, 20), (5, 50)], [(5, 51), (1, 11)]] = [(5, [50, 51]), (1, [10, 11])] := by decide

/-! ### Sequences and tables -/

theorem split_seqs : ∀ (colls : List (Coll α)) (i j : Nat) (s : Seq α), (j, s) ∈ (splitColls colls i).1 ↔ i ≤ j ∧ colls[j - i]? = some (.seq s)
  | [], i, j, s => by simp [splitColls]
  | .seq s' :: colls, i, j, s => by
    rw [splitColls]
    dsimp only
    rw [List.mem_cons, split_seqs colls (i + 1)]
    by_cases hj : j = i
    · subst hj
      simp only [Nat.sub_self, List.getElem?_cons_zero, Option.some.injEq, Coll.seq.injEq, Prod.mk.injEq, true_and, Nat.le_refl]
      constructor
      · rintro (h | h)
        · exact h.symm
        · omega
      · intro h; exact Or.inl h.symm
    · by_cases hle : i + 1 ≤ j
      · rw [show j - i = (j - (i + 1)) + 1 by omega, List.getElem?_cons_succ]
        constructor
        · rintro (h | h)
          · exact absurd (Prod.mk.inj h).1 hj
          · exact ⟨by omega, h.2⟩
        · rintro ⟨_, h⟩
          exact Or.inr ⟨hle, h⟩
      · constructor
        · rintro (h | h)
          · exact absurd (Prod.mk.inj h).1 hj
          · omega
        · rintro ⟨h, _⟩; omega
  | .table t :: colls, i, j, s => by
    rw [splitColls]
    dsimp only
    rw [split_seqs colls (i + 1)]
    by_cases hj : j = i
    · subst hj
      simp; omega
    · by_cases hle : i + 1 ≤ j
      · rw [show j - i = (j - (i + 1)) + 1 by omega, List.getElem?_cons_succ]
        simp [hle]; omega
      · constructor
        · rintro ⟨h, _⟩; omega
        · rintro ⟨h, _⟩; omega

theorem split_tables : ∀ (colls : List (Coll α)) (i j : Nat) (t : Assoc Key α), (j, t) ∈ (splitColls colls i).2 ↔ i ≤ j ∧ colls[j - i]? = some (.table t)
  | [], i, j, t => by simp [splitColls]
  | .table t' :: colls, i, j, t => by
    rw [splitColls]
    dsimp only
    rw [List.mem_cons, split_tables colls (i + 1)]
    by_cases hj : j = i
    · subst hj
      simp only [Nat.sub_self, List.getElem?_cons_zero, Option.some.injEq, Coll.table.injEq, Prod.mk.injEq, true_and, Nat.le_refl]
      constructor
      · rintro (h | h)
        · exact h.symm
        · omega
      · intro h; exact Or.inl h.symm
    · by_cases hle : i + 1 ≤ j
      · rw [show j - i = (j - (i + 1)) + 1 by omega, List.getElem?_cons_succ]
        constructor
        · rintro (h | h)
          · exact absurd (Prod.mk.inj h).1 hj
          · exact ⟨by omega, h.2⟩
        · rintro ⟨_, h⟩
          exact Or.inr ⟨hle, h⟩
      · constructor
        · rintro (h | h)
          · exact absurd (Prod.mk.inj h).1 hj
          · omega
        · rintro ⟨h, _⟩; omega
  | .seq s :: colls, i, j, t => by
    rw [splitColls]
    dsimp only
    rw [split_tables colls (i + 1)]
    by_cases hj : j = i
    · subst hj
      simp; omega
    · by_cases hle : i + 1 ≤ j
      · rw [show j - i = (j - (i + 1)) + 1 by omega, List.getElem?_cons_succ]
        simp [hle]; omega
      · constructor
        · rintro ⟨h, _⟩; omega
        · rintro ⟨h, _⟩; omega

theorem split_length : ∀ (colls : List (Coll α)) (i : Nat), (splitColls colls i).1.length + (splitColls colls i).2.length = colls.length
  | [], i => rfl
  | .seq s :: colls, i => by rw [splitColls]; have := split_length colls (i + 1); simp; omega
  | .table t :: colls, i => by rw [splitColls]; have := split_length colls (i + 1); simp; omega

/-- What the loop over the tables does. -/
theorem fillTables_eq (key : Nat) : ∀ (l : List (Nat × Assoc Key α)) (els : List (Option α)),
    (fillTables key l els).1.length = els.length ∧
    ((fillTables key l els).2 = true ↔ ∀ p ∈ l, ∃ a, assoc p.2 (.int key) = some a) ∧
    ((fillTables key l els).2 = true → ∀ (j : Nat), (∃ p ∈ l, p.1 = j ∧ (fillTables key l els).1[j]? = (els[j]?).map (fun _ => assoc p.2 (.int key))) ∨
      ((∀ p ∈ l, p.1 ≠ j) ∧ (fillTables key l els).1[j]? = els[j]?))
  | [], els => by simp [fillTables]
  | (i, t) :: l, els => by
    rw [fillTables]
    cases ha : assoc t (.int key) with
    | none => simp [ha]
    | some v =>
      dsimp only
      obtain ⟨h1, h2, h3⟩ := fillTables_eq key l (els.set i (some v))
      refine ⟨by simpa using h1, ?_, fun h j => ?_⟩
      · rw [h2]; simp [ha]
      · rcases h3 h j with ⟨p, hp, rfl, hj⟩ | ⟨hno, hj⟩
        · refine Or.inl ⟨p, List.mem_cons_of_mem _ hp, rfl, ?_⟩
          rw [hj, List.getElem?_set]
          by_cases hi : i = p.1
          · subst hi
            rw [if_pos rfl]
            by_cases hlt : p.1 < els.length
            · rw [if_pos hlt, List.getElem?_eq_getElem hlt]; rfl
            · rw [if_neg hlt, List.getElem?_eq_none (by omega)]
          · rw [if_neg hi]
        · by_cases hi : i = j
          · subst hi
            refine Or.inl ⟨(i, t), by simp, rfl, ?_⟩
            rw [hj, List.getElem?_set, if_pos rfl, ha]
            by_cases hlt : i < els.length
            · rw [if_pos hlt, List.getElem?_eq_getElem hlt]; rfl
            · rw [if_neg hlt, List.getElem?_eq_none (by omega)]; rfl
          · refine Or.inr ⟨fun p hp => ?_, by rw [hj, List.getElem?_set_ne hi]⟩
            rcases List.mem_cons.mp hp with rfl | hp
            · exact hi
            · exact hno p hp

theorem fillSeqs_eq (st : Nat) : ∀ (l : List (Nat × Seq α)) (els : List (Option α)),
    (fillSeqs st l els).length = els.length ∧
    ∀ (j : Nat), (∃ p ∈ l, p.1 = j ∧ (fillSeqs st l els)[j]? = (els[j]?).map (fun _ => p.2 st)) ∨ ((∀ p ∈ l, p.1 ≠ j) ∧ (fillSeqs st l els)[j]? = els[j]?)
  | [], els => by simp [fillSeqs]
  | (i, s) :: l, els => by
    rw [fillSeqs]
    obtain ⟨h1, h3⟩ := fillSeqs_eq st l (els.set i (s st))
    refine ⟨by simpa using h1, fun j => ?_⟩
    rcases h3 j with ⟨p, hp, rfl, hj⟩ | ⟨hno, hj⟩
    · refine Or.inl ⟨p, List.mem_cons_of_mem _ hp, rfl, ?_⟩
      rw [hj, List.getElem?_set]
      by_cases hi : i = p.1
      · subst hi
        rw [if_pos rfl]
        by_cases hlt : p.1 < els.length
        · rw [if_pos hlt, List.getElem?_eq_getElem hlt]; rfl
        · rw [if_neg hlt, List.getElem?_eq_none (by omega)]
      · rw [if_neg hi]
    · by_cases hi : i = j
      · subst hi
        refine Or.inl ⟨(i, s), by simp, rfl, ?_⟩
        rw [hj, List.getElem?_set, if_pos rfl]
        by_cases hlt : i < els.length
        · rw [if_pos hlt, List.getElem?_eq_getElem hlt]; rfl
        · rw [if_neg hlt, List.getElem?_eq_none (by omega)]; rfl
      · refine Or.inr ⟨fun p hp => ?_, by rw [hj, List.getElem?_set_ne hi]⟩
        rcases List.mem_cons.mp hp with rfl | hp
        · exact hi
        · exact hno p hp

/-- The elements at a common key. -/
theorem fill_both (colls : List (Coll α)) (key : Nat) (els : List (Option α)) (hl : els.length = colls.length)
    (h : (fillTables key (splitColls colls 0).2 els).2 = true) :
    fillSeqs key (splitColls colls 0).1 (fillTables key (splitColls colls 0).2 els).1 = colls.map (fun c => c.get key) := by
  obtain ⟨t1, t2, t3⟩ := fillTables_eq key (splitColls colls 0).2 els
  obtain ⟨s1, s2⟩ := fillSeqs_eq key (splitColls colls 0).1 (fillTables key (splitColls colls 0).2 els).1
  apply List.ext_getElem?
  intro j
  rw [List.getElem?_map]
  by_cases hj : j < colls.length
  · rw [List.getElem?_eq_getElem hj]
    cases hc : colls[j] with
    | seq s =>
      rcases s2 j with ⟨p, hp, rfl, he⟩ | ⟨hno, _⟩
      · rw [he]
        have := (split_seqs colls 0 p.1 p.2).1 hp
        rw [Nat.sub_zero, List.getElem?_eq_getElem hj, hc] at this
        have hs := this.2
        simp at hs
        rw [← hs, List.getElem?_eq_getElem (by omega)]
        rfl
      · exact absurd rfl (hno (j, s) ((split_seqs colls 0 j s).2 ⟨by omega, by rw [Nat.sub_zero, List.getElem?_eq_getElem hj, hc]⟩))
    | table t =>
      rcases s2 j with ⟨p, hp, rfl, he⟩ | ⟨hno, he⟩
      · have := (split_seqs colls 0 p.1 p.2).1 hp
        rw [Nat.sub_zero, List.getElem?_eq_getElem hj, hc] at this
        simp at this
      · rw [he]
        rcases t3 h j with ⟨p, hp, rfl, he'⟩ | ⟨hno', _⟩
        · rw [he']
          have := (split_tables colls 0 p.1 p.2).1 hp
          rw [Nat.sub_zero, List.getElem?_eq_getElem hj, hc] at this
          have ht := this.2
          simp at ht
          rw [← ht, List.getElem?_eq_getElem (by omega)]
          rfl
        · exact absurd rfl (hno' (j, t) ((split_tables colls 0 j t).2 ⟨by omega, by rw [Nat.sub_zero, List.getElem?_eq_getElem hj, hc]⟩))
  · rw [List.getElem?_eq_none (by omega), List.getElem?_eq_none (by omega)]
    rfl

/-- A number that is a key of all. -/
def CommonKey (colls : List (Coll α)) (i : Nat) : Prop := ∀ c ∈ colls, ∃ a, c.get i = some a

theorem commonKey_iff (colls : List (Coll α)) (i : Nat) : CommonKey colls i ↔
    (∀ p ∈ (splitColls colls 0).1, ∃ a, p.2 i = some a) ∧ ∀ p ∈ (splitColls colls 0).2, ∃ a, assoc p.2 (.int i) = some a := by
  constructor
  · intro h
    refine ⟨fun p hp => ?_, fun p hp => ?_⟩
    · exact h (.seq p.2) (List.mem_of_getElem? ((split_seqs colls 0 p.1 p.2).1 hp).2)
    · exact h (.table p.2) (List.mem_of_getElem? ((split_tables colls 0 p.1 p.2).1 hp).2)
  · rintro ⟨h1, h2⟩ c hc
    obtain ⟨j, hj⟩ := List.getElem?_of_mem hc
    cases c with
    | seq s => exact h1 (j, s) ((split_seqs colls 0 j s).2 ⟨by omega, by simpa using hj⟩)
    | table t => exact h2 (j, t) ((split_tables colls 0 j t).2 ⟨by omega, by simpa using hj⟩)

/-- Skipping stops at the next common key, or at the end of a sequence. -/
theorem skipCommon_eq (colls : List (Coll α)) (bound : Int) (hb : ∀ i : Nat, (i : Int) > bound → ¬ CommonKey colls i) (n : Nat)
    (hend : ∃ p ∈ (splitColls colls 0).1, p.2 n = none) (head : Nat) : ∀ (k key : Nat) (els : List (Option α)), els.length = colls.length → head ≤ key → key ≤ n → n < k + key →
    (key = head ∨ (head : Int) ≤ bound) →
    ∃ key' els', skipCommon (splitColls colls 0).1 (splitColls colls 0).2 bound head k key els = some (key', els') ∧ els'.length = colls.length ∧ key ≤ key' ∧
      (∀ i, key ≤ i → i < key' → ¬ CommonKey colls i) ∧
      ((finishedMixed (splitColls colls 0).1 bound key' key' = false ∧ CommonKey colls key' ∧ key' < n ∧ els' = colls.map (fun c => c.get key')) ∨
       (finishedMixed (splitColls colls 0).1 bound key' key' = true))
  | 0, key, els, hl, h1, h2, h3, h4 => by omega
  | k + 1, key, els, hl, h1, h2, h3, h4 => by
    rw [skipCommon]
    by_cases hf : finishedMixed (splitColls colls 0).1 bound head key = true
    · rw [if_pos hf]
      refine ⟨key, els, rfl, hl, Nat.le_refl _, fun i _ _ => by omega, Or.inr ?_⟩
      unfold finishedMixed at hf ⊢
      rw [Bool.or_eq_true, decide_eq_true_eq] at hf ⊢
      rcases hf with hf | hf
      · exact Or.inl (by omega)
      · exact Or.inr hf
    · rw [if_neg hf]
      have hnf : ¬ (head : Int) > bound ∧ ∀ p ∈ (splitColls colls 0).1, ∃ a, p.2 key = some a := by
        unfold finishedMixed at hf
        rw [Bool.or_eq_true, decide_eq_true_eq, not_or] at hf
        refine ⟨hf.1, fun p hp => ?_⟩
        cases hx : p.2 key with
        | some a => exact ⟨a, rfl⟩
        | none => exact absurd (List.any_eq_true.mpr ⟨p, hp, by simp [hx]⟩) hf.2
      have hlt : key < n := by
        obtain ⟨p, hp, hn⟩ := hend
        obtain ⟨a, ha⟩ := hnf.2 p hp
        by_cases he : key = n
        · subst he; rw [hn] at ha; cases ha
        · omega
      obtain ⟨t1, t2, t3⟩ := fillTables_eq key (splitColls colls 0).2 els
      dsimp only
      by_cases hc : (fillTables key (splitColls colls 0).2 els).2 = true
      · rw [if_pos hc]
        have hck : CommonKey colls key := (commonKey_iff colls key).2 ⟨hnf.2, t2.1 hc⟩
        refine ⟨key, _, rfl, ?_, Nat.le_refl _, fun i _ _ => by omega, Or.inl ⟨?_, hck, hlt, fill_both colls key els hl hc⟩⟩
        · rw [(fillSeqs_eq key _ _).1, t1, hl]
        · unfold finishedMixed
          rw [Bool.or_eq_false_iff, decide_eq_false_iff_not]
          refine ⟨fun hgt => hb key hgt hck, ?_⟩
          cases ha : (splitColls colls 0).1.any (fun p => (p.2 key).isNone) with
          | false => rfl
          | true =>
            obtain ⟨p, hp, hn⟩ := List.any_eq_true.mp ha
            obtain ⟨a, ha⟩ := hnf.2 p hp
            simp [ha] at hn
      · rw [if_neg hc]
        obtain ⟨key', els', e1, e2, e3, e4, e5⟩ := skipCommon_eq colls bound hb n hend head k (key + 1) (fillTables key (splitColls colls 0).2 els).1 (by rw [t1, hl]) (by omega) (by omega)
          (by omega) (Or.inr (by omega))
        refine ⟨key', els', e1, e2, by omega, fun i hi1 hi2 => ?_, e5⟩
        by_cases hi : i = key
        · subst hi
          exact fun hck => hc (t2.2 ((commonKey_iff colls i).1 hck).2)
        · exact e4 i (by omega) hi2

theorem mixedLoop_eq (colls : List (Coll α)) (bound : Int) (hb : ∀ i : Nat, (i : Int) > bound → ¬ CommonKey colls i) (n : Nat)
    (hmono : ∀ c ∈ colls, ∀ s, c = .seq s → ∀ i, s i = none → s (i + 1) = none)
    (hend : ∃ p ∈ (splitColls colls 0).1, p.2 n = none) (fuel : Nat) (hf : n + 1 < fuel) : ∀ (k key : Nat) (els : List (Option α)), els.length = colls.length → n < k + key →
    ((finishedMixed (splitColls colls 0).1 bound key key = false ∧ CommonKey colls key ∧ key < n ∧ els = colls.map (fun c => c.get key)) ∨
       (finishedMixed (splitColls colls 0).1 bound key key = true)) →
    ∃ rows, mixedLoop (splitColls colls 0).1 (splitColls colls 0).2 bound fuel (k + 1) (key, els) = some rows ∧ (rows.map (·.1)).Pairwise (· < ·) ∧
      (∀ i, i ∈ rows.map (·.1) ↔ key ≤ i ∧ CommonKey colls i) ∧ ∀ r ∈ rows, r.2 = colls.map (fun c => c.get r.1)
  | k, key, els, hl, hk, Or.inr hfin => by
    rw [mixedLoop, if_pos hfin]
    refine ⟨[], rfl, by simp, fun i => ?_, by simp⟩
    simp only [List.map_nil, List.not_mem_nil, false_iff]
    rintro ⟨hi, hck⟩
    unfold finishedMixed at hfin
    rw [Bool.or_eq_true, decide_eq_true_eq] at hfin
    rcases hfin with h | h
    · exact hb i (by omega) hck
    · obtain ⟨p, hp, hn⟩ := List.any_eq_true.mp h
      have hmem := List.mem_of_getElem? ((split_seqs colls 0 p.1 p.2).1 hp).2
      have hall : ∀ d, p.2 (key + d) = none := by
        intro d
        induction d with
        | zero => simpa using hn
        | succ d ih => exact hmono _ hmem p.2 rfl _ ih
      obtain ⟨a, ha⟩ := ((commonKey_iff colls i).1 hck).1 p hp
      have := hall (i - key)
      rw [show key + (i - key) = i by omega, ha] at this
      cases this
  | 0, key, els, hl, hk, Or.inl ⟨hnf, hck, hlt, hels⟩ => by omega
  | k + 1, key, els, hl, hk, Or.inl ⟨hnf, hck, hlt, hels⟩ => by
    rw [mixedLoop, if_neg (by simp [hnf])]
    obtain ⟨key', els', e1, e2, e3, e4, e5⟩ := skipCommon_eq colls bound hb n hend (key + 1) fuel (key + 1) els hl (Nat.le_refl _) (by omega) (by omega) (Or.inl rfl)
    rw [e1]
    dsimp only
    obtain ⟨rows, r1, r2, r3, r4⟩ := mixedLoop_eq colls bound hb n hmono hend fuel hf k key' els' e2 (by omega) e5
    rw [r1]
    refine ⟨(key, els) :: rows, rfl, ?_, fun i => ?_, fun r hr => ?_⟩
    · rw [List.map_cons, List.pairwise_cons]
      refine ⟨fun j hj => ?_, r2⟩
      have := ((r3 j).1 hj).1
      dsimp only
      omega
    · rw [List.map_cons, List.mem_cons, r3 i]
      dsimp only
      constructor
      · rintro (rfl | ⟨h1, h2⟩)
        · exact ⟨Nat.le_refl _, hck⟩
        · exact ⟨by omega, h2⟩
      · rintro ⟨h1, h2⟩
        by_cases hi : i = key
        · exact Or.inl hi
        · refine Or.inr ⟨?_, h2⟩
          by_cases hlt' : i < key'
          · exact absurd h2 (e4 i (by omega) hlt')
          · omega
    · rcases List.mem_cons.mp hr with rfl | hr
      · exact hels
      · exact r4 r hr

/-- Sequences and tables, one of the sequences with an end: the numbers that are keys of all, ascending. -/
theorem multiple_mixed_partial (colls : List (Coll α)) {n fuel : Nat} (hn : n + 1 < fuel)
    (hmono : ∀ s, Coll.seq s ∈ colls → ∀ i, s i = none → s (i + 1) = none)
    (hend : ∃ s, Coll.seq s ∈ colls ∧ s n = none) (ht : ∃ t, Coll.table t ∈ colls) :
    ∃ rows, multiMixed fuel colls = some rows ∧ Common (colls.map Coll.get) rows ∧ (rows.map (·.1)).Pairwise (· < ·) := by
  have hend' : ∃ p ∈ (splitColls colls 0).1, p.2 n = none := by
    obtain ⟨s, hs, h⟩ := hend
    obtain ⟨j, hj⟩ := List.getElem?_of_mem hs
    exact ⟨(j, s), (split_seqs colls 0 j s).2 ⟨by omega, by simpa using hj⟩, h⟩
  unfold multiMixed
  dsimp only
  generalize hbd : maxKey (((splitColls colls 0).2.map (·.2)).getD (minimumCollection ((splitColls colls 0).2.map (fun p => p.2.length))) []) (-1) = bound
  have hb : ∀ i : Nat, (i : Int) > bound → ¬ CommonKey colls i := by
    intro i hi hck
    have hne : (splitColls colls 0).2 ≠ [] := by
      obtain ⟨t, ht⟩ := ht
      obtain ⟨j, hj⟩ := List.getElem?_of_mem ht
      have := (split_tables colls 0 j t).2 ⟨by omega, by simpa using hj⟩
      exact List.ne_nil_of_mem this
    have hlt : minimumCollection ((splitColls colls 0).2.map (fun p => p.2.length)) < (splitColls colls 0).2.length := by
      have := minimumCollection_lt (sizes := (splitColls colls 0).2.map (fun p => p.2.length)) (by simpa using hne)
      simpa using this
    generalize hix : minimumCollection ((splitColls colls 0).2.map (fun p => p.2.length)) = ix at hlt hbd
    obtain ⟨a, ha⟩ := ((commonKey_iff colls i).1 hck).2 _ (List.getElem_mem hlt)
    have hge := maxKey_ge _ (-1) (assoc_mem.2 ⟨a, ha⟩)
    rw [List.getD_eq_getElem?_getD, List.getElem?_map, List.getElem?_eq_getElem hlt] at hbd
    simp only [Option.map_some, Option.getD_some] at hbd
    omega
  obtain ⟨key', els', e1, e2, e3, e4, e5⟩ := skipCommon_eq colls bound hb n hend' 0 fuel 0 (List.replicate ((splitColls colls 0).1.length + (splitColls colls 0).2.length) none)
    (by rw [List.length_replicate, split_length]) (Nat.le_refl _) (by omega) (by omega) (Or.inl rfl)
  rw [e1]
  dsimp only
  obtain ⟨k, rfl⟩ : ∃ k, fuel = k + 1 := ⟨fuel - 1, by omega⟩
  obtain ⟨rows, r1, r2, r3, r4⟩ := mixedLoop_eq colls bound hb n (fun c hc s hs => hmono s (hs ▸ hc)) hend' (k + 1) hn k key' els' e2 (by omega) e5
  refine ⟨rows, r1, ⟨r2.imp (fun h => Nat.ne_of_lt h), fun i => ?_, fun r hr => ?_⟩, r2⟩
  · rw [r3 i]
    simp only [List.mem_map, forall_exists_index, and_imp, forall_apply_eq_imp_iff₂]
    refine ⟨fun h => h.2, fun h => ⟨?_, h⟩⟩
    by_cases hlt : i < key'
    · exact absurd h (e4 i (by omega) hlt)
    · omega
  · rw [r4 r hr, List.map_map]
    rfl

example : multiMixed 9 [.seq (fun i => [1, 2, 3][i]?), .table [(.int 2, 20), (.other 4, 5), (.int 0, 10)], .seq (fun i => some i)] =
    some [(0, [some 1, some 10, some 0]), (2, [some 3, some 20, some 2])] := by decide

theorem skip_forever (seqs : List (Nat × Seq α)) (tables : List (Nat × Assoc Key α)) (bound : Int) (head : Nat) (hf : ∀ key, finishedMixed seqs bound head key = false)
    (hn : ∀ key els, (fillTables key tables els).2 = false) : ∀ (k key : Nat) (els : List (Option α)), skipCommon seqs tables bound head k key els = none
  | 0, _, _ => rfl
  | k + 1, key, els => by
    rw [skipCommon, if_neg (by simp [hf key]), if_neg (by simp [hn key els])]
    exact skip_forever seqs tables bound head hf hn k (key + 1) _

/-- An unbounded range and two tables without a common key: there is no common key, but the iteration goes on for
    ever, although no key is greater than 5. -/
theorem multiple_mixed_violated : ∃ colls : List (Coll Nat), Common (colls.map Coll.get) [] ∧ (∀ fuel, multiMixed fuel colls = none) := by
  refine ⟨[.seq (fun i => some i), .table [(.int 5, 0)], .table [(.int 3, 0)]], ⟨by simp, fun k => ?_, by simp⟩, fun fuel => ?_⟩
  · simp only [List.map_nil, List.not_mem_nil, false_iff]
    intro h
    obtain ⟨a, ha⟩ := h (Coll.get (.table [(.int 5, 0)])) (by simp)
    obtain ⟨b, hb⟩ := h (Coll.get (.table [(.int 3, 0)])) (by simp)
    unfold Coll.get assoc at ha hb
    by_cases h5 : (5 : Int) = k
    · have h3 : ¬ (3 : Int) = k := by omega
      simp [h3] at hb
    · simp [h5] at ha
  · unfold multiMixed
    dsimp only
    rw [skip_forever]
    · intro key
      unfold finishedMixed
      simp [splitColls, maxKey, minimumCollection, minLoop]; omega
    · intro key els
      simp only [splitColls, fillTables]
      unfold assoc
      by_cases h5 : (5 : Int) = key
      · have h3 : ¬ (3 : Int) = key := by omega
        simp [h5, h3]
      · simp [h5]

end Verif.Iter
