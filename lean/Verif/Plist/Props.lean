import Verif.Plist.Lemmas

/-!
# C143: property lists
-/

namespace Verif.Plist

variable {α : Type} [DecidableEq α]

/-! ### Vectors

A vector of even length is `flat ps` for some properties `ps` (`vector_cases`), and no access is outside it. -/

/-- Each vector has an odd length or consists of properties. -/
theorem vector_cases (xs : List α) : xs.length % 2 = 1 ∨ ∃ ps, xs = flat ps := by
  rcases Nat.mod_two_eq_zero_or_one xs.length with h | h
  · exact Or.inr (exists_flat (xs.length / 2) xs (by omega))
  · exact Or.inl h

/-- **C143.**  Vectors of odd length are refused. -/
theorem odd_refused (xs : List α) (h : xs.length % 2 = 1) (k v f : α) (ks : List α) (hk : ks ≠ []) :
    getVector xs k v = .odd ∧ putVector xs k v = .odd ∧ keywordsVector xs = .odd ∧ valuesVector xs = .odd ∧
    removeStretchy f xs k = .odd ∧ removeSimple f xs k = .odd ∧ removeKeywords f xs ks = .odd := by
  have hx : xs ≠ [] := by rintro rfl; simp at h
  simp [getVector, putVector, keywordsVector, valuesVector, removeStretchy, removeSimple, removeKeywords, even, h, hx, hk]

example : ([1, 2, 3] : List Nat).length % 2 = 1 := rfl

/-- **C143.**  `get-property` returns the value of the first property with the indicator, or the default. -/
theorem get_vector (ps : List (α × α)) (k d : α) : getVector (flat ps) k d = .ok ((lookup ps k).getD d) := by
  unfold getVector
  rw [even_flat]
  exact getLoop_flat k d ps [] _ (by rw [length_flat]; omega)

example : getVector (flat [(1, 10), (2, 20), (1, 30)]) 1 0 = .ok 10 := by decide

/-- **C143.**  `put-property!` gives a value to the indicator ... -/
theorem put_vector (ps : List (α × α)) (k v : α) : putVector (flat ps) k v = .ok (flat (update ps k v)) := by
  unfold putVector
  rw [even_flat]
  exact putLoop_flat k v ps [] _ (by rw [length_flat]; omega)

/-- ... which `get-property` then returns, and changes no other. -/
theorem get_after_put (ps : List (α × α)) (k v d : α) : ∃ xs, putVector (flat ps) k v = .ok xs ∧
    getVector xs k d = .ok v ∧ ∀ k', k' ≠ k → getVector xs k' d = getVector (flat ps) k' d := by
  refine ⟨_, put_vector ps k v, ?_, ?_⟩
  · rw [get_vector, lookup_update]; rfl
  · intro k' h
    rw [get_vector, get_vector, lookup_update_other h]

example : putVector (flat [(1, 10), (2, 20)]) 2 21 = .ok [1, 10, 2, 21] ∧
    putVector (flat [(1, 10)]) 2 21 = .ok [1, 10, 2, 21] := by decide

/-- **C143.**  `keyword-sequence` and `value-sequence`. -/
theorem sequences_vector (ps : List (α × α)) :
    keywordsVector (flat ps) = .ok (ps.map Prod.fst) ∧ valuesVector (flat ps) = .ok (ps.map Prod.snd) := by
  have hl : (flat ps).length / 2 = ps.length := by rw [length_flat]; omega
  have h0 := everySecond_flat 0 (by omega) ps []
  have h1 := everySecond_flat 1 (by omega) ps []
  unfold keywordsVector valuesVector
  rw [even_flat, even_flat, hl]
  exact ⟨h0, h1⟩

example : keywordsVector [1, 10, 2, 20] = .ok [1, 2] ∧ valuesVector [1, 10, 2, 20] = .ok [10, 20] := by decide

/-- **C143.**  `remove-property!` of either kind of vector leaves the properties with other indicators, in their order, and
returns the value of the last one that it removes. -/
theorem remove_vector (f : α) (ps : List (α × α)) (k : α) :
    removeStretchy f (flat ps) k = .ok ((lookupLast ps k).getD f, flat (ps.filter fun p => !decide (p.1 = k))) ∧
    removeSimple f (flat ps) k = .ok ((lookupLast ps k).getD f, flat (ps.filter fun p => !decide (p.1 = k))) := by
  have hl := length_flat ps
  constructor
  · unfold removeStretchy
    rw [even_flat]
    obtain ⟨zs, hz⟩ := removeLoop_flat k ps [] [] (flat ps).length f (by omega)
    simp only [List.nil_append, List.append_nil, List.length_nil, Nat.mul_zero, Nat.add_zero] at hz
    rw [show flat ([] : List (α × α)) = [] from rfl, List.nil_append] at hz
    rw [hz, bind_ok]
    have ht : (flat (ps.filter fun p => !decide (p.1 = k)) ++ zs).take (2 * (ps.filter fun p => !decide (p.1 = k)).length) =
        flat (ps.filter fun p => !decide (p.1 = k)) := by
      rw [← length_flat, List.take_left']
      rfl
    simp only [ht]
  · unfold removeSimple
    rw [even_flat]
    have hc := countLoop_flat k ps [] (flat ps).length 0 (by omega)
    rw [show flat ([] : List (α × α)) = [] from rfl, List.nil_append] at hc
    simp only [List.length_nil, Nat.mul_zero, Nat.zero_add] at hc
    rw [hc, bind_ok]
    have hle := List.length_filter_le (fun p : α × α => !decide (p.1 = k)) ps
    by_cases h0 : 2 * (ps.length - (ps.filter fun p => !decide (p.1 = k)).length) = 0
    · rw [if_pos h0]
      have he : ps.filter (fun p => !decide (p.1 = k)) = ps :=
        List.filter_sublist.eq_of_length (by omega)
      have hn : lookupLast ps k = none := by
        unfold lookupLast
        apply lookup_none
        intro p hp hpk
        have hp' : p ∈ ps.filter fun p => !decide (p.1 = k) := by rw [he]; exact List.mem_reverse.1 hp
        have := (List.mem_filter.1 hp').2
        simp [hpk] at this
      rw [he, hn]
      rfl
    · rw [if_neg h0]
      obtain ⟨zs, v, h1, h2, h3⟩ := copyLoop_flat (fun x => decide (x = k)) ps [] []
        (List.replicate ((flat ps).length - 2 * (ps.length - (ps.filter fun p => !decide (p.1 = k)).length)) f)
        (flat ps).length f (by omega) (by rw [List.length_replicate]; omega)
      rw [show flat ([] : List (α × α)) = [] from rfl, List.nil_append, List.nil_append] at h3
      simp only [List.length_nil, Nat.mul_zero, List.nil_append] at h3
      rw [h3, bind_ok, h2 k (by simp)]
      have hz : zs = [] := by
        apply List.eq_nil_of_length_eq_zero
        rw [h1, List.length_replicate]
        omega
      rw [hz, List.append_nil]

example : removeStretchy 0 (flat [(1, 10), (2, 20), (3, 30)]) 2 = .ok (20, [1, 10, 3, 30]) ∧
    removeSimple 0 (flat [(1, 10), (2, 20), (3, 30)]) 2 = .ok (20, [1, 10, 3, 30]) := by decide

/-- **C143.**  After `remove-property!` the indicator has no value, and the others have theirs. -/
theorem get_after_remove (f : α) (ps : List (α × α)) (k d : α) : ∃ v xs,
    removeStretchy f (flat ps) k = .ok (v, xs) ∧ removeSimple f (flat ps) k = .ok (v, xs) ∧ getVector xs k d = .ok d ∧
    ∀ k', k' ≠ k → getVector xs k' d = getVector (flat ps) k' d := by
  obtain ⟨h1, h2⟩ := remove_vector f ps k
  refine ⟨_, _, h1, h2, ?_, ?_⟩
  · rw [get_vector, lookup_filter_none (fun x => decide (x = k)) (by simp)]; rfl
  · intro k' h
    rw [get_vector, get_vector, lookup_filter (fun x => decide (x = k)) (by simp [h])]

/-- **C143.**  `remove-property!` returns the value that the indicator had, if each indicator occurs once. -/
theorem removed_value_partial (f : α) (ps : List (α × α)) (k : α) (h : (ps.map Prod.fst).Nodup) : ∃ v xs,
    removeStretchy f (flat ps) k = .ok (v, xs) ∧ removeSimple f (flat ps) k = .ok (v, xs) ∧
    getVector (flat ps) k f = .ok v := by
  obtain ⟨h1, h2⟩ := remove_vector f ps k
  refine ⟨_, _, h1, h2, ?_⟩
  rw [get_vector, lookupLast_nodup h]

example : (([(1, 10), (2, 20), (3, 30)] : List (Nat × Nat)).map Prod.fst).Nodup := by decide

/-- **C143 is violated**: it returns another value than the indicator had, if the indicator occurs twice. -/
theorem removed_value_violated : getVector (flat [(1, 10), (1, 20)]) 1 0 = .ok 10 ∧
    removeStretchy 0 (flat [(1, 10), (1, 20)]) 1 = .ok (20, []) ∧
    removeSimple 0 (flat [(1, 10), (1, 20)]) 1 = .ok (20, []) := by decide

/-- **C143.**  `remove-keywords` leaves the properties whose indicators are not among the keywords. -/
theorem remove_keywords (f : α) (ps : List (α × α)) (ks : List α) :
    removeKeywords f (flat ps) ks = .ok (flat (ps.filter fun p => !decide (p.1 ∈ ks))) := by
  unfold removeKeywords
  by_cases h0 : flat ps = [] ∨ ks = []
  · rw [if_pos h0]
    rcases h0 with h0 | rfl
    · cases ps with
      | nil => rfl
      | cons p ps => simp [flat] at h0
    · have : ps.filter (fun p => !decide (p.1 ∈ ([] : List α))) = ps := by
        rw [List.filter_eq_self]; simp
      rw [this]
  · rw [if_neg h0]
    have hrem : among ks = fun x => decide (x ∈ ks) := by
      funext x
      unfold among
      split
      · rename_i keyword
        simp only [List.mem_singleton]
        by_cases hx : keyword = x
        · simp [hx]
        · simp [hx, Ne.symm hx]
      · simp
    rw [hrem]
    rw [even_flat]
    have hl := length_flat ps
    have hle := List.length_filter_le (fun p : α × α => !decide (p.1 ∈ ks)) ps
    obtain ⟨zs, v, _, _, h3⟩ := copyLoop_flat (fun x => decide (x ∈ ks)) ps [] []
      (List.replicate (flat ps).length f) (flat ps).length f (by omega) (by rw [List.length_replicate]; omega)
    rw [show flat ([] : List (α × α)) = [] from rfl, List.nil_append, List.nil_append] at h3
    simp only [List.length_nil, Nat.mul_zero, List.nil_append] at h3
    rw [h3, bind_ok]
    simp only
    rw [← length_flat, List.take_left']
    rfl

example : removeKeywords 0 (flat [(1, 10), (2, 20), (1, 30), (3, 40)]) [1, 3] = .ok [2, 20] := by decide

/-! ### Lists

The rounds are bounded by the number of pairs of the list. -/

/-- **C143.**  `get-property`, `keyword-sequence` and `value-sequence` of a list. -/
theorem get_list {m : Mem α} {p : Option Nat} {as : List Nat} {ps : List (α × α)} (h : Stored m p as (flat ps))
    (nil k d : α) : getList m nil k d as.length p = some ((lookup ps k).getD d) ∧
    keywordsList m as.length p [] = some (ps.map Prod.fst) ∧ valuesList m as.length p [] = some (ps.map Prod.snd) := by
  have hl := chain_length h.1
  rw [length_flat] at hl
  refine ⟨getList_chain nil k d ps _ p as h.1 (by omega), ?_, ?_⟩
  · rw [keywordsList_chain ps _ p as [] h.1 (by omega)]; rfl
  · rw [valuesList_chain ps _ p as [] h.1 (by omega)]; rfl

/-- **C143.**  `put-property!` of a list gives a value to the indicator, and changes no pair that is not in the list. -/
theorem put_list {m : Mem α} {p : Option Nat} {as : List Nat} {ps : List (α × α)} (h : Stored m p as (flat ps))
    (k v : α) : ∃ m' p' as', putList m k v as.length p as.length p = some (m', p') ∧
      Stored m' p' as' (flat (update ps k v)) ∧ Only m m' as := by
  have hl := chain_length h.1
  rw [length_flat] at hl
  by_cases hk : lookup ps k = none
  · rw [putList_missing k v as.length p ps as.length p as h.1 hk (by omega), update_missing k v hk, flat_append]
    have hnew := list2_chain m k v
    have hold : Chain (m.list2 k v).1 p as (flat ps) := chain_frame h.1 fun a ha => list2_old m k v (h.2.2 a ha)
    cases p with
    | none =>
      have hps : ps = [] ∧ as = [] := by
        have h1 := h.1
        cases as <;> cases ps <;> simp [Chain, flat] at h1 ⊢
      obtain ⟨rfl, rfl⟩ := hps
      refine ⟨_, _, _, rfl, ⟨hnew, by simp, ?_⟩, ?_⟩
      · intro a ha
        simp only [List.mem_cons, List.not_mem_nil, or_false] at ha
        simp only [Mem.list2]
        omega
      · intro a ha _
        exact list2_old m k v ha
    | some a =>
      obtain ⟨m', h1, h2, h3, h4⟩ := findTail_chain as (flat ps) as.length a _ _ hold hnew h.2.1 (by
        intro b hb hba
        have := h.2.2 b hba
        simp only [List.mem_cons, List.not_mem_nil, or_false] at hb
        omega) (Nat.le_refl _)
      refine ⟨m', some a, as ++ [m.next + 1, m.next], ?_, ⟨h3, ?_, ?_⟩, ?_⟩
      · unfold concatenate
        simp only [h1, Option.map_some]
      · rw [List.nodup_append]
        refine ⟨h.2.1, by simp, ?_⟩
        intro b hb c hc
        have := h.2.2 b hb
        simp only [List.mem_cons, List.not_mem_nil, or_false] at hc
        omega
      · intro b hb
        have hn : (m.list2 k v).1.next = m.next + 2 := rfl
        rw [h2, hn]
        rcases List.mem_append.1 hb with hb | hb
        · have := h.2.2 b hb
          omega
        · simp only [List.mem_cons, List.not_mem_nil, or_false] at hb
          omega
      · intro b hb hbas
        rw [h4 b hbas, list2_old m k v hb]
  · obtain ⟨m', h1, h2, h3, h4⟩ := putList_found k v as.length p ps as.length p as h.1 h.2.1 hk (by omega)
    exact ⟨m', p, as, h1, ⟨h3, h.2.1, fun a ha => by rw [h2]; exact h.2.2 a ha⟩, fun a _ ha => h4 a ha⟩

/-- **C143.**  `remove-property!` of a list removes the first property with the indicator and returns its value, or `#f`; it
changes no pair that is not in the list. -/
theorem remove_list {m : Mem α} {p : Option Nat} {as : List Nat} {ps : List (α × α)} (h : Stored m p as (flat ps))
    (f k : α) : ∃ m' p' as', removeList m f k p as.length p none = some ((lookup ps k).getD f, m', p') ∧
      Stored m' p' as' (flat (removeFirst ps k)) ∧ Only m m' as := by
  have hl := chain_length h.1
  rw [length_flat] at hl
  cases ps with
  | nil =>
    obtain ⟨rfl, rfl⟩ := chain_nil h.1
    refine ⟨m, none, [], rfl, h, fun _ _ _ => rfl⟩
  | cons q ps =>
    obtain ⟨a, b, as', rfl, rfl, h1, h2, h3, h4⟩ := chain_two h.1
    have hnd := h.2.1
    simp only [List.nodup_cons, List.mem_cons, not_or] at hnd
    obtain ⟨⟨hab, ha⟩, hb, hnd⟩ := hnd
    simp only [List.length_cons, removeList, h1, h2, if_true, h3, lookup, removeFirst]
    by_cases hq : q.1 = k
    · simp only [if_pos hq, Option.getD_some, Mem.tail, h2]
      refine ⟨_, _, as', rfl, ⟨h4, hnd, fun c hc => h.2.2 c (by simp [hc])⟩, fun _ _ _ => rfl⟩
    · simp only [if_neg hq, Mem.tail]
      obtain ⟨m', bs, g1, g2, g3, g4, g5, g6⟩ := removeList_rest f k a ps (as'.length + 1) _ b as' h4 rfl ha hb hnd
        (by simp only [List.length_cons] at hl; omega)
      have ea : m'.cells a = m.cells a := g6 a (by simp [hab, ha])
      refine ⟨m', some a, a :: b :: bs, g1, ⟨?_, ?_, ?_⟩, ?_⟩
      · refine ⟨rfl, by rw [ea, h1], ?_⟩
        rw [ea, h2]
        exact ⟨rfl, by rw [g5, h3], g3⟩
      · exact ((g4.cons_cons b).cons_cons a).nodup h.2.1
      · intro c hc
        rw [g2]
        exact h.2.2 c (((g4.cons_cons b).cons_cons a).subset hc)
      · intro c _ hc
        simp only [List.mem_cons, not_or] at hc
        exact g6 c (by simp [hc.2.1, hc.2.2])

/-- A list of two properties. -/
def sample : Mem Nat :=
  ⟨fun a => if a = 0 then ⟨1, some 1⟩ else if a = 1 then ⟨10, some 2⟩ else if a = 2 then ⟨1, some 3⟩ else ⟨20, none⟩, 4⟩

example : Stored sample (some 0) [0, 1, 2, 3] (flat [(1, 10), (1, 20)]) := by
  refine ⟨?_, by decide, by decide⟩
  simp [Chain, flat, sample]

/-- **C143.**  After `remove-property!` of a list the indicator has no value if each indicator occurs once, and the others have
theirs. -/
theorem list_after_remove_partial {m : Mem α} {p : Option Nat} {as : List Nat} {ps : List (α × α)}
    (h : Stored m p as (flat ps)) (hn : (ps.map Prod.fst).Nodup) (f nil k d : α) : ∃ (m' : Mem α) (p' : Option Nat) (as' : List Nat),
      removeList m f k p as.length p none = some ((lookup ps k).getD f, m', p') ∧
      getList m' nil k d as'.length p' = some d ∧
      ∀ k', k' ≠ k → getList m' nil k' d as'.length p' = some ((lookup ps k').getD d) := by
  obtain ⟨m', p', as', h1, h2, _⟩ := remove_list h f k
  refine ⟨m', p', as', h1, ?_, ?_⟩
  · rw [(get_list h2 nil k d).1, removeFirst_nodup hn]; rfl
  · intro k' hk
    rw [(get_list h2 nil k' d).1, lookup_removeFirst_other hk]

/-- **C143 is violated**: if the indicator occurs twice, it has the value of the second property after `remove-property!` of a
list, though not of a vector. -/
theorem list_after_remove_violated : ∃ (m : Mem Nat) (p' : Option Nat),
    removeList sample 0 1 (some 0) 4 (some 0) none = some (10, m, p') ∧ getList m 0 1 0 4 p' = some 20 :=
  ⟨sample, some 2, rfl, rfl⟩

end Verif.Plist
