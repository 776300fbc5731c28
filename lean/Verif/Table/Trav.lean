import Verif.Table.Term

/-! # Helper lemmas for hash tables: whole iterations -/

namespace Verif.Table

variable {K V : Type} {W : World K}

theorem run_append {fuel : Nat} {a b : List (Op K V)} : ∀ {s s' : St K V} {os : List (Obs K V)},
    run W fuel s (a ++ b) = .ok (os, s') →
    ∃ s1 os1 os2, run W fuel s a = .ok (os1, s1) ∧ run W fuel s1 b = .ok (os2, s') ∧
      os = os1 ++ os2 := by
  induction a with
  | nil => intro s s' os h; exact ⟨s, [], os, rfl, h, rfl⟩
  | cons op a ih =>
    intro s s' os h
    simp only [List.cons_append, run] at h ⊢
    cases hst : step W fuel s op with
    | diverge => rw [hst] at h; cases h
    | running => rw [hst] at h; cases h
    | ok r =>
      obtain ⟨o, s1⟩ := r
      rw [hst] at h
      simp only at h ⊢
      cases hr : run W fuel s1 (a ++ b) with
      | diverge => rw [hr] at h; cases h
      | running => rw [hr] at h; cases h
      | ok r =>
        obtain ⟨os', s2⟩ := r
        rw [hr] at h
        cases h
        obtain ⟨s3, os1, os2, e1, e2, e3⟩ := ih hr
        exact ⟨s3, o :: os1, os2, by rw [e1], e2, by rw [e3]; rfl⟩

/-- What operations that keep iteration `id` leave alone. -/
structure Kept (id : Nat) (it : Iter K) (ro : Prop) (s s' : St K V) (m m' : K → Option V) : Prop where
  its : s'.its[id]? = some it
  count : (s'.T.vecs it.source).count = (s.T.vecs it.source).count
  full : ∀ i k v, (s.T.vecs it.source).slots i = .full k v →
    ∃ v', (s'.T.vecs it.source).slots i = .full k v'
  ro : ro → (s'.T.vecs it.source).slots = (s.T.vecs it.source).slots ∧ m' = m

theorem run_kept (hW : W.Lawful) {fuel : Nat} {id : Nat} {it : Iter K} (hl : it.index ≠ none)
    (ops : List (Op K V)) : ∀ {s s' : St K V} {sp : SpecSt K V} {os : List (Obs K V)},
    SInv W s sp → s.its[id]? = some it → (∀ op ∈ ops, op.keeps id = true) →
    run W fuel s ops = .ok (os, s') →
    ∃ sp', SInv W s' sp' ∧
      Kept id it (∀ op ∈ ops, op.readOnly id = true) s s' sp.m sp'.m := by
  induction ops with
  | nil =>
    intro s s' sp os h hit _ hrun
    cases hrun
    exact ⟨sp, h, hit, rfl, fun _ _ v e => ⟨v, e⟩, fun _ => ⟨rfl, rfl⟩⟩
  | cons op ops ih =>
    intro s s' sp os h hit hk hrun
    have hs := step_ok hW fuel h op
    simp only [run] at hrun
    cases hst : step W fuel s op with
    | diverge => rw [hst] at hrun; cases hrun
    | running => rw [hst] at hrun; cases hrun
    | ok r =>
      obtain ⟨o, s1⟩ := r
      rw [hst] at hs hrun
      obtain ⟨sp1, a1, a2, a3⟩ := hs
      obtain ⟨b1, b2, b3, b4⟩ := a3 id it hit hl (hk op (by simp))
      simp only at hrun
      cases hr : run W fuel s1 ops with
      | diverge => rw [hr] at hrun; cases hrun
      | running => rw [hr] at hrun; cases hrun
      | ok r =>
        obtain ⟨os', s2⟩ := r
        rw [hr] at hrun
        cases hrun
        obtain ⟨sp2, c1, c2⟩ := ih a2 b1 (fun o ho => hk o (by simp [ho])) hr
        refine ⟨sp2, c1, c2.its, c2.count.trans b2, ?_, ?_⟩
        · intro i k v e
          obtain ⟨v', e'⟩ := b3 i k v e
          exact c2.full i k v' e'
        · intro hro
          obtain ⟨d1, d2⟩ := b4 (hro op (by simp))
          obtain ⟨d3, d4⟩ := c2.ro fun o ho => hro o (by simp [ho])
          exact ⟨d3.trans d1, d4.trans d2⟩

theorem readOnly_keeps {id : Nat} {op : Op K V} (h : op.readOnly id = true) :
    op.keeps id = true := by
  cases op <;> first | rfl | exact h

/-- The observation of the current element of an iteration. -/
theorem elem_obs (hW : W.Lawful) {fuel : Nat} {id : Nat} {it : Iter K} {s s' : St K V}
    {sp : SpecSt K V} {k : K} {v : V} (h : SInv W s sp) (hit : s.its[id]? = some it)
    (hk : it.key = some k)
    (hst : step W fuel s (.iterElem id) = .ok (.elem v, s')) :
    sp.m k = some v ∨ sp.m k = none := by
  have hs := step_ok hW fuel h (.iterElem id)
  rw [hst] at hs
  obtain ⟨sp1, a1, _, _⟩ := hs
  obtain ⟨c, hc, hrel⟩ := forall2_get h.curs hit
  have key : ∀ k' b, sp.curs[id]? = some (some (k', b)) → k' = k := by
    intro k' b e
    rw [e] at hc
    cases hc
    obtain ⟨_, _, g2, _⟩ := hrel
    rw [hk] at g2
    exact (Option.some.inj g2).symm
  cases a1 with
  | iterElem _ k' b _ e1 e2 => rw [key k' b e1] at e2; exact Or.inl e2
  | iterElemGone _ k' b _ e1 e2 => rw [key k' b e1] at e2; exact Or.inr e2

/-- What a whole iteration from the current position on visits. -/
theorem traverse_spec (hW : W.Lawful) {fuel : Nat} {between : Nat → List (Op K V)} {id : Nat}
    (hb : ∀ n, ∀ op ∈ between n, op.keeps id = true) (steps : Nat) :
    ∀ {s : St K V} {sp : SpecSt K V} {it : Iter K} {i : Nat} {k : K} {v0 : V}
      {l : List (K × V)}, SInv W s sp → s.its[id]? = some it → it.index = some i →
      it.key = some k → i < (s.T.vecs it.source).count →
      (s.T.vecs it.source).slots i = .full k v0 →
      traverse W fuel between id steps s = .ok (some l) →
      (∀ j k' v', j ≤ i → (s.T.vecs it.source).slots j = .full k' v' → ∃ v, (k', v) ∈ l) ∧
      (∀ p ∈ l, ∀ j k' v', i < j → j < (s.T.vecs it.source).count →
        (s.T.vecs it.source).slots j = .full k' v' → W.eq k' p.1 = false) ∧
      l.Pairwise (fun a b => W.eq a.1 b.1 = false) ∧
      ((∀ n, ∀ op ∈ between n, op.readOnly id = true) → ∀ p ∈ l,
        (∃ j v', j ≤ i ∧ (s.T.vecs it.source).slots j = .full p.1 v') ∧
        (sp.m p.1 = some p.2 ∨ sp.m p.1 = none)) := by
  induction steps with
  | zero => intro s sp it i k v0 l _ _ _ _ _ _ ht; cases ht
  | succ steps ih =>
    intro s sp it i k v0 l h hit hi hk hlt hfull ht
    have hl : it.index ≠ none := by rw [hi]; simp
    have hcur : (s.its[id]?).bind Iter.current = some k := by
      rw [hit]; simp [Iter.current, hi, hk]
    simp only [traverse, hcur] at ht
    cases hrun : run W fuel s ([.iterElem id] ++ between steps ++ [.iterNext id]) with
    | diverge => rw [hrun] at ht; cases ht
    | running => rw [hrun] at ht; cases ht
    | ok r =>
      obtain ⟨os, s'⟩ := r
      rw [hrun] at ht
      cases os with
      | nil => cases ht
      | cons o os =>
        cases o with
        | elem v =>
          simp only at ht
          obtain ⟨s2, os1, os2, e1, e2, e3⟩ := run_append hrun
          -- the value seen
          have hval : sp.m k = some v ∨ sp.m k = none := by
            simp only [List.cons_append, List.nil_append, run] at e1
            cases hst : step W fuel s (.iterElem id) with
            | diverge => rw [hst] at e1; cases e1
            | running => rw [hst] at e1; cases e1
            | ok r =>
              obtain ⟨o1, s1⟩ := r
              rw [hst] at e1
              simp only at e1
              have ho : o1 = .elem v := by
                cases hr1 : run W fuel s1 (between steps) with
                | diverge => rw [hr1] at e1; cases e1
                | running => rw [hr1] at e1; cases e1
                | ok r =>
                  obtain ⟨os3, s3⟩ := r
                  rw [hr1] at e1
                  cases e1
                  rw [List.cons_append] at e3
                  exact (List.cons.inj e3).1.symm
              rw [ho] at hst
              exact elem_obs hW h hit hk hst
          obtain ⟨sp2, c1, c2⟩ := run_kept hW hl _ h hit (by
            intro op hop
            simp only [List.cons_append, List.nil_append, List.mem_cons] at hop
            rcases hop with rfl | hop
            · rfl
            · exact hb steps op hop) e1
          have hro : (∀ n, ∀ op ∈ between n, op.readOnly id = true) →
              (s2.T.vecs it.source).slots = (s.T.vecs it.source).slots ∧ sp2.m = sp.m := by
            intro hr
            refine c2.ro ?_
            intro op hop
            simp only [List.cons_append, List.nil_append, List.mem_cons] at hop
            rcases hop with rfl | hop
            · rfl
            · exact hr steps op hop
          -- the next position
          have hs3 := step_ok hW fuel c1 (.iterNext id)
          simp only [run] at e2
          have hnext : step W fuel s2 (.iterNext id) = .ok (.cursor (nextState s2.T it).2.current,
              { s2 with T := (nextState s2.T it).1, its := s2.its.set id (nextState s2.T it).2 }) := by
            simp only [step, c2.its]
          rw [hnext] at hs3 e2
          simp only at e2
          obtain ⟨sp3, d1, d2, _⟩ := hs3
          have hm3 : sp3.m = sp2.m := by cases d1 <;> rfl
          have hs' : s' = { s2 with T := (nextState s2.T it).1, its := s2.its.set id (nextState s2.T it).2 } := by
            cases e2; rfl
          obtain ⟨v2, hfull2⟩ := c2.full i k v0 hfull
          have hlen : id < s2.its.length := lt_of_getElem? c2.its
          have huniq : Uniq W (s2.T.vecs it.source).slots (s2.T.vecs it.source).count :=
            c1.tinv.uniqs _ (c1.live_refs (List.mem_of_getElem? c2.its) hl).1
          have huniq0 : Uniq W (s.T.vecs it.source).slots (s.T.vecs it.source).count :=
            h.tinv.uniqs _ (h.live_refs (List.mem_of_getElem? hit) hl).1
          -- the head against the entries above
          have hhead : ∀ j k' v', i < j → j < (s.T.vecs it.source).count →
              (s.T.vecs it.source).slots j = .full k' v' → W.eq k' k = false := by
            intro j k' v' hj hjc e
            cases hq : W.eq k' k with
            | false => rfl
            | true =>
              have := huniq0 j i k' v' k v0 hjc hlt e hfull hq
              omega
          cases ht' : traverse W fuel between id steps s' with
          | diverge => rw [ht'] at ht; cases ht
          | running => rw [ht'] at ht; cases ht
          | ok ol =>
            rw [ht'] at ht
            cases ol with
            | none => cases ht
            | some l' =>
              have hl' : l = (k, v) :: l' := by cases ht; rfl
              subst hl'
              rcases nextState_spec s2.T hi with ⟨j, k1, v1, e, h1, h2, h3⟩ | ⟨e, h1⟩
              · rw [e] at hs' d2
                simp only at hs' d2
                have hit' : s'.its[id]? = some { it with index := some j, key := some k1 } := by
                  rw [hs']; simp [hlen]
                have d2' : SInv W s' sp3 := by rw [hs']; exact d2
                have hT : s'.T = s2.T := by rw [hs']
                obtain ⟨t1, t2, t3, t4⟩ := ih d2' hit' rfl rfl
                  (by simp only [hT]; rw [c2.count]; omega) (by simp only [hT]; exact h2) ht'
                simp only [hT] at t1 t2 t4
                have hpw : ∀ p ∈ l', W.eq k p.1 = false := fun p hp =>
                  t2 p hp i k v2 h1 (by rw [c2.count]; exact hlt) hfull2
                refine ⟨?_, ?_, List.Pairwise.cons hpw t3, ?_⟩
                · intro a k' v' ha hka
                  by_cases hai : a = i
                  · subst hai
                    rw [hfull] at hka; cases hka
                    exact ⟨v, by simp⟩
                  · obtain ⟨v'', hka2⟩ := c2.full a k' v' hka
                    have haj : a ≤ j := by
                      by_contra hcon
                      have := h3 a (by omega) (by omega)
                      rw [hka2] at this
                      cases this
                    obtain ⟨w, hw⟩ := t1 a k' v'' haj hka2
                    exact ⟨w, List.mem_cons_of_mem _ hw⟩
                · intro p hp a k' v' ha hac hka
                  rcases List.mem_cons.1 hp with rfl | hp
                  · exact hhead a k' v' ha hac hka
                  · obtain ⟨v'', hka2⟩ := c2.full a k' v' hka
                    exact t2 p hp a k' v'' (by omega) (by rw [c2.count]; exact hac) hka2
                · intro hr p hp
                  obtain ⟨r1, r2⟩ := hro hr
                  rcases List.mem_cons.1 hp with rfl | hp
                  · exact ⟨⟨i, v0, Nat.le_refl _, hfull⟩, hval⟩
                  · obtain ⟨⟨a, v', ha, hka⟩, hm⟩ := t4 hr p hp
                    rw [r1] at hka
                    rw [hm3, r2] at hm
                    exact ⟨⟨a, v', by omega, hka⟩, hm⟩
              · rw [e] at hs'
                have hit' : s'.its[id]? = some { it with index := none } := by
                  rw [hs']; simp [hlen]
                have hnil : l' = [] := by
                  cases steps with
                  | zero => cases ht'
                  | succ steps =>
                    simp only [traverse, hit'] at ht'
                    simp [Iter.current] at ht'
                    exact ht'
                subst hnil
                refine ⟨?_, ?_, List.pairwise_singleton _ _, ?_⟩
                · intro a k' v' ha hka
                  by_cases hai : a = i
                  · subst hai
                    rw [hfull] at hka; cases hka
                    exact ⟨v, by simp⟩
                  · obtain ⟨v'', hka2⟩ := c2.full a k' v' hka
                    have := h1 a (by omega)
                    rw [hka2] at this
                    cases this
                · intro p hp a k' v' ha hac hka
                  simp at hp; subst hp
                  exact hhead a k' v' ha hac hka
                · intro hr p hp
                  simp at hp; subst hp
                  exact ⟨⟨i, v0, Nat.le_refl _, hfull⟩, hval⟩
        | _ => cases ht

/-! ### tables that are not too large -/

/-- A table with `n` keys can be rehashed. -/
def Small (W : World K) (m : K → Option V) : Prop := ∀ n, IsSize W.eq m n → n < 347872735

theorem compute_small {a b : Int} (ha : computeEntryCount a ≠ none) (hb : b < 347872735) :
    computeEntryCount (max a b) ≠ none := by
  have hlast : ((entryCounts.getD (entryCounts.length - 1) 0 : Nat) : Int) = 463830313 := by decide
  unfold computeEntryCount at *
  simp only [hlast] at *
  have h1 : max (ceilThreshold (if a < 0 then 0 else a)) 31 ≤ 463830313 := by
    by_contra hn
    rw [if_neg hn] at ha
    exact ha rfl
  have h2 : max (ceilThreshold (if max a b < 0 then 0 else max a b)) 31 ≤ 463830313 := by
    unfold ceilThreshold at *
    split at h1 <;> split <;> omega
  rw [if_pos h2]
  simp

theorem rehash_small {T : Tab K V} {now : Nat} {m : K → Option V} (h : TInv W T now m)
    (hm : Small W m) {T' : Tab K V} {now' : Nat} :
    rehashTable W now T false ≠ .tooLarge T' now' := by
  intro e
  have hsz := hm _ h.size
  have hc : computeEntryCount (rehashEntryCount T false) ≠ none :=
    compute_small h.init hsz
  unfold rehashTable at e
  split at e
  · unfold rehashInPlace at e
    split at e <;> cases e
  · split at e
    · rename_i hn; exact hc hn
    · unfold rehashIntoCopy at e
      split at e <;> cases e

/-- The operation does not fail. -/
def Res.NoErr {α : Type} (r : Res K V α) : Prop :=
  match r with
  | .tooLarge _ _ => False
  | _ => True

theorem Res.NoErr.bind {α β : Type} {r : Res K V α} {f : α → Res K V β} {P : α → Prop}
    {Q : Tab K V → Nat → Prop} (h : r.Sat P Q) (hr : r.NoErr) (hf : ∀ a, P a → (f a).NoErr) :
    (r.bind f).NoErr := by
  cases r with
  | ok a => exact hf a h
  | tooLarge T now => exact hr
  | diverge => trivial
  | running => trivial

theorem rehash_noErr {T : Tab K V} {now : Nat} {m : K → Option V} (h : TInv W T now m)
    (hm : Small W m) : (rehashTable W now T false).NoErr := by
  cases e : rehashTable W now T false with
  | tooLarge T' now' => exact rehash_small h hm e
  | _ => trivial

theorem gethash_noErr (hW : W.Lawful) (fuel : Nat) : ∀ {T : Tab K V} {now : Nat}
    {m : K → Option V}, TInv W T now m → Small W m → ∀ key, (gethash W fuel now T key).NoErr := by
  induction fuel with
  | zero => intros; trivial
  | succ fuel ih =>
    intro T now m h hm key
    obtain ⟨j, h1, h2, h3, h4⟩ := h.search key (W.hash now key)
    simp only [gethash, h1]
    rcases h4 with he | ⟨k, v, he, hk⟩
    · rw [he]
      simp only
      split
      · have h' := h.later (Nat.le_add_right now 2)
        exact Res.NoErr.bind (rehashTable_sat hW h' false (fun _ => false)) (rehash_noErr h' hm)
          fun r hr => ih hr.1 hm key
      · trivial
    · rw [he]
      simp only
      split
      · exact ih (h.later (Nat.le_add_right now 1)) hm key
      · trivial

theorem removeKey_noErr (hW : W.Lawful) (fuel : Nat) : ∀ {T : Tab K V} {now : Nat}
    {m : K → Option V}, TInv W T now m → Small W m → ∀ key, (removeKey W fuel now T key).NoErr := by
  induction fuel with
  | zero => intros; trivial
  | succ fuel ih =>
    intro T now m h hm key
    obtain ⟨j, h1, h2, h3, h4⟩ := h.search key (W.hash now key)
    simp only [removeKey, h1]
    split
    · trivial
    · split
      · have h' := h.later (Nat.le_add_right now 2)
        exact Res.NoErr.bind (rehashTable_sat hW h' false (fun _ => false)) (rehash_noErr h' hm)
          fun r hr => ih hr.1 hm key
      · split
        · exact ih (h.later (Nat.le_add_right now 2)) hm key
        · trivial

theorem initialState_noErr (hW : W.Lawful) (fuel : Nat) : ∀ {T : Tab K V} {now : Nat}
    {m : K → Option V}, TInv W T now m → Small W m → (initialState W fuel now T).NoErr := by
  induction fuel with
  | zero => intros; trivial
  | succ fuel ih =>
    intro T now m h hm
    simp only [initialState]
    split
    · have h' := h.later (Nat.le_add_right now 1)
      exact Res.NoErr.bind (rehashTable_sat hW h' false (fun _ => false)) (rehash_noErr h' hm)
        fun r hr => ih hr.1 hm
    · trivial

/-- Operations that cannot make the table larger. -/
def Op.noGrow : Op K V → Bool
  | .put _ _ => false
  | .iterSet _ _ => false
  | _ => true

theorem Res.NoErr.out {α : Type} {r : Res K V α} (h : r.NoErr) {s s' : St K V}
    {f : α → Obs K V × St K V} (hf : ∀ a, (f a).1 ≠ .tooLarge) :
    r.out s f ≠ .ok (.tooLarge, s') := by
  intro e
  cases r with
  | ok a =>
    simp only [Res.out] at e
    have := hf a
    rw [Out.ok.inj e] at this
    exact this rfl
  | tooLarge T now => exact h
  | diverge => cases e
  | running => cases e

theorem step_noErr (hW : W.Lawful) {fuel : Nat} {s s' : St K V} {sp : SpecSt K V}
    (h : SInv W s sp) (hm : Small W sp.m) {op : Op K V} (hop : op.noGrow = true) :
    step W fuel s op ≠ .ok (.tooLarge, s') := by
  cases op with
  | put k v => cases hop
  | iterSet n v => cases hop
  | get k => exact (gethash_noErr hW fuel h.tinv hm k).out (by intro a; simp)
  | remove k => exact (removeKey_noErr hW fuel h.tinv hm k).out (by intro a; simp)
  | clear =>
    have := removeAll_sat h.tinv (fun _ => false)
    refine Res.NoErr.out ?_ (by intro a; simp)
    cases e : removeAll s.now s.T with
    | tooLarge T now => rw [e] at this; exact this
    | _ => trivial
  | size => simp [step]
  | iterStart => exact (initialState_noErr hW fuel h.tinv hm).out (by intro a; simp)
  | iterNext n => simp only [step]; split <;> simp
  | iterCopy n => simp only [step]; split <;> simp
  | iterElem n =>
    simp only [step]
    split
    · simp
    · refine Res.NoErr.out ?_ (by intro a; cases a.1 <;> simp [elemObs])
      unfold currentElement
      have look : ∀ k v, ((gethash W fuel s.now s.T k).bind fun r =>
          (.ok (some (r.1.getD v), r.2) : Res K V (Option V × Tab K V × Nat))).NoErr := fun k v =>
        Res.NoErr.bind (gethash_sat hW fuel h.tinv k (fun _ => false))
          (gethash_noErr hW fuel h.tinv hm k) fun _ _ => trivial
      split
      · split
        · split
          · trivial
          · exact look _ _
        · exact look _ _
        · trivial
      · trivial

/-- Operations that leave the map as it is, on a table that is not too large, end without errors. -/
theorem run_readOnly (hW : W.Lawful) {t : Nat} (hq : W.Quiet t) {fuel : Nat} (hf : t + 2 ≤ fuel)
    {id : Nat} (ops : List (Op K V)) : ∀ {s : St K V} {sp : SpecSt K V}, SInv W s sp →
    s.T.tv.rehashing = false → Small W sp.m → (∀ op ∈ ops, op.readOnly id = true) →
    ∃ os s' sp', run W fuel s ops = .ok (os, s') ∧ SInv W s' sp' ∧ sp'.m = sp.m ∧
      s'.T.tv.rehashing = false := by
  induction ops with
  | nil => intro s sp h hr _ _; exact ⟨[], s, sp, rfl, h, rfl, hr⟩
  | cons op ops ih =>
    intro s sp h hr hm hro
    have ho := hro op (by simp)
    have hs := step_ok hW fuel h op
    have he := step_ends hW hq hf h hr op
    cases hst : step W fuel s op with
    | diverge => rw [hst] at hs; exact hs.elim
    | running => rw [hst] at he; exact he.elim
    | ok r =>
      obtain ⟨o, s1⟩ := r
      rw [hst] at hs he
      obtain ⟨sp1, a1, a2, _⟩ := hs
      have hne : o ≠ .tooLarge := by
        rintro rfl
        exact step_noErr hW h hm (by cases op <;> first | rfl | cases ho) hst
      have hr1 : s1.T.tv.rehashing = false := he.resolve_left hne
      have hm1 : sp1.m = sp.m := by
        cases a1 <;> first | rfl | cases ho
      obtain ⟨os, s2, sp2, b1, b2, b3, b4⟩ := ih a2 hr1 (by rw [hm1]; exact hm)
        (fun op hop => hro op (by simp [hop]))
      exact ⟨o :: os, s2, sp2, by simp [run, hst, b1], b2, b3.trans hm1, b4⟩

/-- The current element of an entry is there. -/
theorem elem_some {fuel : Nat} {s s' : St K V} {id : Nat} {it : Iter K} {i : Nat} {k : K} {v : V}
    {o : Obs K V} (hit : s.its[id]? = some it) (hi : it.index = some i) (hk : it.key = some k)
    (hf : (s.T.vecs it.source).slots i = .full k v)
    (hst : step W fuel s (.iterElem id) = .ok (o, s')) : o = .tooLarge ∨ ∃ v', o = .elem v' := by
  simp only [step, hit] at hst
  unfold currentElement at hst
  simp only [hi, hk, hf] at hst
  split at hst
  · cases hst
    exact Or.inr ⟨_, rfl⟩
  · cases hg : gethash W fuel s.now s.T k with
    | ok r =>
      rw [hg] at hst
      cases hst
      exact Or.inr ⟨_, rfl⟩
    | tooLarge T now => rw [hg] at hst; cases hst; exact Or.inl rfl
    | diverge => rw [hg] at hst; cases hst
    | running => rw [hg] at hst; cases hst

theorem run_concat {fuel : Nat} {a b : List (Op K V)} : ∀ {s s1 : St K V} {os1 : List (Obs K V)},
    run W fuel s a = .ok (os1, s1) → run W fuel s (a ++ b) =
      match run W fuel s1 b with
      | .ok (os2, s') => .ok (os1 ++ os2, s')
      | .diverge => .diverge
      | .running => .running := by
  induction a with
  | nil =>
    intro s s1 os1 h
    cases h
    simp only [List.nil_append]
    cases run W fuel s b with
    | ok r => rfl
    | diverge => rfl
    | running => rfl
  | cons op a ih =>
    intro s s1 os1 h
    simp only [List.cons_append, run] at h ⊢
    cases hst : step W fuel s op with
    | diverge => rw [hst] at h; cases h
    | running => rw [hst] at h; cases h
    | ok r =>
      obtain ⟨o, s2⟩ := r
      rw [hst] at h
      simp only at h ⊢
      cases hr : run W fuel s2 a with
      | diverge => rw [hr] at h; cases h
      | running => rw [hr] at h; cases h
      | ok r =>
        obtain ⟨os', s3⟩ := r
        rw [hr] at h
        cases h
        rw [ih hr]
        cases run W fuel s1 b with
        | ok r => rfl
        | diverge => rfl
        | running => rfl

/-- A whole iteration, with operations in between that leave the map as it is, ends. -/
theorem traverse_ends (hW : W.Lawful) {t : Nat} (hq : W.Quiet t) {fuel : Nat} (hf : t + 2 ≤ fuel)
    {between : Nat → List (Op K V)} {id : Nat}
    (hb : ∀ n, ∀ op ∈ between n, op.readOnly id = true) (steps : Nat) :
    ∀ {s : St K V} {sp : SpecSt K V} {it : Iter K} {i : Nat} {k : K} {v0 : V}, SInv W s sp →
      s.T.tv.rehashing = false → Small W sp.m → s.its[id]? = some it → it.index = some i →
      it.key = some k → (s.T.vecs it.source).slots i = .full k v0 → i + 1 < steps →
      ∃ l, traverse W fuel between id steps s = .ok (some l) := by
  induction steps with
  | zero => intro s sp it i k v0 _ _ _ _ _ _ _ hlt; omega
  | succ steps ih =>
    intro s sp it i k v0 h hr hm hit hi hk hfull hlt
    have hl : it.index ≠ none := by rw [hi]; simp
    have hcur : (s.its[id]?).bind Iter.current = some k := by
      rw [hit]; simp [Iter.current, hi, hk]
    have hro : ∀ op ∈ [Op.iterElem id] ++ between steps, op.readOnly id = true := by
      intro op hop
      simp only [List.cons_append, List.nil_append, List.mem_cons] at hop
      rcases hop with rfl | hop
      · rfl
      · exact hb steps op hop
    obtain ⟨os, s2, sp2, b1, b2, b3, b4⟩ := run_readOnly hW hq hf _ h hr hm hro
    obtain ⟨sp2', _, c2⟩ := run_kept hW hl _ h hit (fun op hop => readOnly_keeps (hro op hop)) b1
    have hslots := (c2.ro hro).1
    have hnext : step W fuel s2 (.iterNext id) = .ok (.cursor (nextState s2.T it).2.current,
        { s2 with T := (nextState s2.T it).1, its := s2.its.set id (nextState s2.T it).2 }) := by
      simp only [step, c2.its]
    have hs3 := step_ok hW fuel b2 (.iterNext id)
    rw [hnext] at hs3
    obtain ⟨sp3, d1, d2, _⟩ := hs3
    have hm3 : sp3.m = sp2.m := by cases d1 <;> rfl
    obtain ⟨v, os', hos⟩ : ∃ v os', os = .elem v :: os' := by
      simp only [List.cons_append, List.nil_append, run] at b1
      cases hst : step W fuel s (.iterElem id) with
      | diverge => rw [hst] at b1; cases b1
      | running => rw [hst] at b1; cases b1
      | ok r =>
        obtain ⟨o1, s1⟩ := r
        rw [hst] at b1
        simp only at b1
        rcases elem_some hit hi hk hfull hst with rfl | ⟨v, rfl⟩
        · exact absurd hst (step_noErr hW h hm rfl)
        · cases hr1 : run W fuel s1 (between steps) with
          | diverge => rw [hr1] at b1; cases b1
          | running => rw [hr1] at b1; cases b1
          | ok r =>
            obtain ⟨os3, s3⟩ := r
            rw [hr1] at b1
            cases b1
            exact ⟨v, os3, rfl⟩
    have hrun : run W fuel s ([.iterElem id] ++ between steps ++ [.iterNext id]) =
        .ok (os ++ [.cursor (nextState s2.T it).2.current],
          { s2 with T := (nextState s2.T it).1, its := s2.its.set id (nextState s2.T it).2 }) := by
      rw [run_concat b1]
      simp only [run, hnext]
    have hlen : id < s2.its.length := lt_of_getElem? c2.its
    obtain ⟨l, hrest⟩ : ∃ l, traverse W fuel between id steps
        { s2 with T := (nextState s2.T it).1, its := s2.its.set id (nextState s2.T it).2 }
        = .ok (some l) := by
      rcases nextState_spec s2.T hi with ⟨j, k1, v1, e, h1, h2, h3⟩ | ⟨e, h1⟩
      · refine ih d2 ((nextState_rehashing _ _).trans b4) (by rw [hm3, b3]; exact hm)
          (it := { it with index := some j, key := some k1 }) (k := k1) (v0 := v1)
          (by rw [e]; simp [hlen]) rfl rfl ?_ (by omega)
        rw [e]
        exact h2
      · obtain ⟨st, rfl⟩ : ∃ st, steps = st + 1 := ⟨steps - 1, by omega⟩
        refine ⟨[], ?_⟩
        have : ((s2.its.set id (nextState s2.T it).2)[id]?).bind Iter.current = none := by
          rw [e]; simp [hlen, Iter.current]
        simp only [traverse, this]
    refine ⟨(k, v) :: l, ?_⟩
    simp only [traverse, hcur]
    rw [hrun, hos]
    simp only [List.cons_append, hrest]
    rfl

/-! ### the start of an iteration -/

/-- Where a new iteration stands. -/
theorem start_pos (hW : W.Lawful) {fuel : Nat} {s s1 : St K V} {sp : SpecSt K V} {c : Option K}
    (h : SInv W s sp) (hst : step W fuel s .iterStart = .ok (.cursor c, s1)) :
    ∃ sp1 it, SInv W s1 sp1 ∧ sp1.m = sp.m ∧ s1.T.tv.rehashing = false ∧
      s1.its[s.its.length]? = some it ∧ Rep W (s1.T.vecs it.source) sp.m ∧
      ((it.index = none ∧ ∀ l, l < (s1.T.vecs it.source).count →
          isEntry ((s1.T.vecs it.source).slots l) = false) ∨
        ∃ j k v, it.index = some j ∧ it.key = some k ∧ j < (s1.T.vecs it.source).count ∧
          (s1.T.vecs it.source).slots j = .full k v ∧
          ∀ l, j < l → l < (s1.T.vecs it.source).count →
            isEntry ((s1.T.vecs it.source).slots l) = false) := by
  have hs := step_ok hW fuel h .iterStart
  rw [hst] at hs
  obtain ⟨sp1, a1, a2, _⟩ := hs
  have hm : sp1.m = sp.m := by cases a1; rfl
  have hsat := initialState_sat hW fuel h.tinv (fun _ => false)
  simp only [step] at hst
  cases hi : initialState W fuel s.now s.T with
  | tooLarge T now => rw [hi] at hst; cases hst
  | diverge => rw [hi] at hst; cases hst
  | running => rw [hi] at hst; cases hst
  | ok r =>
    obtain ⟨it, T', now'⟩ := r
    rw [hi] at hst hsat
    obtain ⟨T1, t1, t2, t3, t4, t5⟩ := hsat
    simp only [Res.out] at hst
    have hs1 : s1 = { T := T', now := now', its := s.its ++ [it] } := by cases hst; rfl
    simp only at t5
    have hsame : SameVecs T1 (T1.modify T1.cur incRefs) := sameVecs_modify T1 T1.cur (· + 1)
    have hreh : s1.T.tv.rehashing = false := by
      have : T' = (nextState (T1.modify T1.cur incRefs)
          { source := T1.cur, token := T1.tv.token, index := some T1.tv.count, key := none }).1 := by
        rw [← t5]
      rw [hs1]
      simp only
      rw [this, nextState_rehashing]
      exact unmarked t4 fun _ => rfl
    refine ⟨sp1, it, a2, hm, hreh, by rw [hs1]; simp, ?_⟩
    have hT : s1.T = T' := by rw [hs1]
    rw [hT]
    rcases nextState_spec (T1.modify T1.cur incRefs)
      (it := { source := T1.cur, token := T1.tv.token, index := some T1.tv.count, key := none })
      rfl with ⟨j, k, v, e, h1, h2, h3⟩ | ⟨e, h1⟩
    · rw [e] at t5
      obtain ⟨rfl, rfl⟩ := Prod.mk.inj t5
      simp only
      obtain ⟨b1, _, b3⟩ := hsame.2 T1.cur
      simp only at h2 h3
      rw [b3] at h2 h3
      rw [b1, b3]
      refine ⟨?_, Or.inr ⟨j, k, v, rfl, rfl, h1, h2, h3⟩⟩
      intro k v
      rw [b1, b3]
      exact t1.rep k v
    · rw [e] at t5
      obtain ⟨rfl, rfl⟩ := Prod.mk.inj t5
      simp only
      have hsame' : SameVecs (T1.modify T1.cur incRefs)
          ((T1.modify T1.cur incRefs).modify T1.cur decRefs) := sameVecs_modify _ T1.cur (· - 1)
      obtain ⟨b1, _, b3⟩ := hsame.2 T1.cur
      obtain ⟨c1, _, c3⟩ := hsame'.2 T1.cur
      simp only at h1
      rw [b3] at h1
      rw [c1, b1, c3, b3]
      refine ⟨?_, Or.inl ⟨by first | rfl | trivial, h1⟩⟩
      intro k v
      rw [c1, b1, c3, b3]
      exact t1.rep k v

/-- An exhausted iteration visits nothing. -/
theorem traverse_exhausted {fuel : Nat} {between : Nat → List (Op K V)} {id : Nat} {s : St K V}
    {it : Iter K} (hit : s.its[id]? = some it) (hi : it.index = none) (steps : Nat) :
    traverse W fuel between id (steps + 1) s = .ok (some []) := by
  have : (s.its[id]?).bind Iter.current = none := by
    rw [hit]; simp [Iter.current, hi]
  simp only [traverse, this]

end Verif.Table
