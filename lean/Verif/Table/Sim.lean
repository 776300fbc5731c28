import Verif.Table.Hist

/-! # Helper lemmas for hash tables: every step conforms to the specification -/

namespace Verif.Table

variable {K V : Type} {W : World K}

/-! ### storing through an iteration -/

theorem Inv.redel {tv : TV K V} {now : Nat} (h : Inv W tv now) {j : Nat} {o o' : Option V}
    (hj : j < tv.count) (he : tv.slots j = .deleted o) :
    Inv W { tv with slots := Function.update tv.slots j (.deleted o') } now := by
  refine ⟨h.good, ?_, ?_, h.lim, upd_uniq' rfl h.uniq, ?_, h.time⟩
  · have := upd_cnt isFound (slots := tv.slots) hj (.deleted o')
    have e1 : isFound (Slot.deleted o : Slot K V) = isFound (Slot.deleted o' : Slot K V) := rfl
    rw [he, e1] at this
    have := h.adds
    simp only
    omega
  · have := upd_cnt isDeleted (slots := tv.slots) hj (.deleted o')
    have e1 : isDeleted (Slot.deleted o : Slot K V) = isDeleted (Slot.deleted o' : Slot K V) := rfl
    rw [he, e1] at this
    have := h.dels
    simp only
    omega
  · intro i k v hi e
    have hij : i ≠ j := by
      rintro rfl
      simp at e
    simp only [Function.update_of_ne hij] at e
    obtain ⟨s, a, b⟩ := h.placed i k v hi e
    exact ⟨s, a, Placed.update b rfl⟩

theorem Rep.redel {tv : TV K V} {m : K → Option V} (h : Rep W tv m) {j : Nat} {o o' : Option V}
    (he : tv.slots j = .deleted o) :
    Rep W { tv with slots := Function.update tv.slots j (.deleted o') } m := by
  refine h.congr ?_
  intro k v
  constructor
  · rintro ⟨i, hi, e⟩
    have hij : i ≠ j := by
      rintro rfl
      simp at e
    simp only [Function.update_of_ne hij] at e
    exact ⟨i, hi, e⟩
  · rintro ⟨i, hi, e⟩
    have hij : i ≠ j := by
      rintro rfl
      rw [he] at e; cases e
    exact ⟨i, hi, by simp only [Function.update_of_ne hij]; exact e⟩

theorem Evolve.redel {rm : K → Bool} {T : Tab K V} {n j : Nat} {o o' : Option V}
    (he : (T.vecs n).slots j = .deleted o) :
    Evolve False rm T (T.modify n
      fun tv => { tv with slots := Function.update tv.slots j (.deleted o') }) := by
  refine Evolve.modify rfl (fun _ => ⟨rfl, rfl, fun x => False.elim x⟩) ?_ ?_
  · intro _ i k v e
    have hij : i ≠ j := by
      rintro rfl
      rw [he] at e; cases e
    exact Or.inl ⟨v, by simp only [Function.update_of_ne hij]; exact e⟩
  · intro _ i o1 e
    by_cases hij : i = j
    · subst hij; exact ⟨o', by simp⟩
    · exact ⟨o1, by simp only [Function.update_of_ne hij]; exact e⟩

theorem TInv.modifyOld {T : Tab K V} {now : Nat} {m : K → Option V} {n : Nat}
    {f : TV K V → TV K V} (h : TInv W T now m) (hn : n < T.cur)
    (hr : (f (T.vecs n)).rehashing = (T.vecs n).rehashing)
    (hu : Uniq W (f (T.vecs n)).slots (f (T.vecs n)).count) :
    TInv W (T.modify n f) now m := by
  have htv : (T.modify n f).tv = T.tv := modify_other _ _ (Nat.ne_of_gt hn)
  refine ⟨by rw [htv]; exact h.inv, by rw [htv]; exact h.rep, ?_, ?_, h.init⟩
  · intro j hj
    by_cases e : j = n
    · subst e; rw [modify_self, hr]; exact h.old j hj
    · rw [modify_other _ _ e]; exact h.old j hj
  · intro j hj
    by_cases e : j = n
    · subst e; rw [modify_self]; exact hu
    · rw [modify_other _ _ e]; exact h.uniqs j hj

theorem set_uniq {slots : Nat → Slot K V} {c j : Nat} {k : K} {v0 v : V}
    (hu : Uniq W slots c) (he : slots j = .full k v0) :
    Uniq W (Function.update slots j (.full k v)) c := by
  have back : ∀ a k1 v1, Function.update slots j (.full k v) a = .full k1 v1 →
      ∃ v2, slots a = .full k1 v2 := by
    intro a k1 v1 ea
    by_cases haj : a = j
    · rw [haj, Function.update_self] at ea
      cases ea
      exact ⟨v0, by rw [haj]; exact he⟩
    · rw [Function.update_of_ne haj] at ea
      exact ⟨_, ea⟩
  intro a b k1 v1 k2 v2 ha hb ea eb hk
  obtain ⟨_, ea'⟩ := back _ _ _ ea
  obtain ⟨_, eb'⟩ := back _ _ _ eb
  exact hu _ _ _ _ _ _ ha hb ea' eb' hk

theorem storeValue_full {tv : TV K V} {i : Nat} {k : K} {v0 v : V} (he : tv.slots i = .full k v0) :
    storeValue i v tv = setEntry i k v tv := by
  unfold storeValue setEntry
  rw [he]
  rfl

theorem storeValue_deleted {tv : TV K V} {i : Nat} {o : Option V} {v : V}
    (he : tv.slots i = .deleted o) :
    storeValue i v tv = { tv with slots := Function.update tv.slots i (.deleted (some v)) } := by
  unfold storeValue
  rw [he]
  rfl

theorem modify_congr {T : Tab K V} {n : Nat} {f g : TV K V → TV K V}
    (h : f (T.vecs n) = g (T.vecs n)) : T.modify n f = T.modify n g := by
  unfold Tab.modify
  rw [h]

/-- The store itself. -/
theorem storeValue_sat (hW : W.Lawful) {T : Tab K V} {now : Nat} {m : K → Option V}
    (h : TInv W T now m) {it : Iter K} {k : K} {b : Bool} (hc : CurRel T it (some (k, b))) (v : V)
    (rm : K → Bool) :
    ∃ i m', it.index = some i ∧ it.key = some k ∧
      (m' = m ∨ m' = mapPut W.eq m k v) ∧
      TInv W (T.modify it.source (storeValue i v)) now m' ∧
      Evolve False rm T (T.modify it.source (storeValue i v)) ∧
      (isDeleted (((T.modify it.source (storeValue i v)).vecs it.source).slots i) = false →
        tokenValid (T.modify it.source (storeValue i v)) it = true → m' = mapPut W.eq m k v) := by
  obtain ⟨i, h1, h2, h3, h4, h5, h6⟩ := hc
  rcases h6 with ⟨v0, e⟩ | ⟨_, o, e⟩
  · have hsv : T.modify it.source (storeValue i v) = T.modify it.source (setEntry i k v) :=
      modify_congr (storeValue_full e)
    by_cases hcur : it.source = T.cur
    · refine ⟨i, mapPut W.eq m k v, h1, h2, Or.inr rfl, ?_, hsv ▸ Evolve.setEntry e, fun _ _ => rfl⟩
      rw [hsv]
      rw [hcur] at e h4 ⊢
      exact h.modify (h.inv.set hW h4 e) (h.rep.set hW h.inv.uniq h4 e (hW.refl k))
    · have hlt : it.source < T.cur := Nat.lt_of_le_of_ne h3 hcur
      refine ⟨i, m, h1, h2, Or.inl rfl, ?_, hsv ▸ Evolve.setEntry e, ?_⟩
      · rw [hsv]
        exact h.modifyOld hlt rfl (set_uniq (h.uniqs _ h3) e)
      · intro _ hv
        exfalso
        rw [hsv] at hv
        unfold tokenValid at hv
        rw [modify_self] at hv
        have : (setEntry i k v (T.vecs it.source)).rehashing = true := h.old _ hlt
        rw [this] at hv
        cases hv
  · have hsv : T.modify it.source (storeValue i v) = T.modify it.source
        fun tv => { tv with slots := Function.update tv.slots i (.deleted (some v)) } :=
      modify_congr (storeValue_deleted e)
    refine ⟨i, m, h1, h2, Or.inl rfl, ?_, hsv ▸ Evolve.redel e, ?_⟩
    · rw [hsv]
      by_cases hcur : it.source = T.cur
      · rw [hcur] at e h4 ⊢
        exact h.modify (h.inv.redel h4 e) (h.rep.redel e)
      · exact h.modifyOld (Nat.lt_of_le_of_ne h3 hcur) rfl (upd_uniq' rfl (h.uniqs _ h3))
    · intro hd
      rw [hsv, modify_self] at hd
      simp [isDeleted] at hd

theorem mapPut_twice (eq : K → K → Bool) (m : K → Option V) (k : K) (v : V) :
    mapPut eq (mapPut eq m k v) k v = mapPut eq m k v := by
  funext k'
  unfold mapPut
  split <;> rfl

/-! ### the steps -/

theorem live_none {j : Nat} {it : Iter K} (h : it.index = none) : live j it = false := by
  simp [live, h]

theorem live_some {j i : Nat} {it : Iter K} (h : it.index = some i) :
    live j it = decide (it.source = j) := by
  simp [live, h]

theorem countP_set' {its : List (Iter K)} {n : Nat} {it it' : Iter K} (h : its[n]? = some it)
    (p : Iter K → Bool) :
    (its.set n it').countP p + (if p it then 1 else 0) =
      its.countP p + (if p it' then 1 else 0) := by
  induction its generalizing n with
  | nil => simp at h
  | cons a its ih =>
    cases n with
    | zero =>
      simp at h; subst h
      simp only [List.set_cons_zero, List.countP_cons]
      omega
    | succ n =>
      simp at h
      have := ih h
      simp only [List.set_cons_succ, List.countP_cons]
      omega

theorem getElem?_set_ne {α : Type} {l : List α} {n id : Nat} {a : α} (h : n ≠ id) :
    (l.set n a)[id]? = l[id]? := List.getElem?_set_ne h

theorem lt_of_getElem? {α : Type} {l : List α} {n : Nat} {a : α} (h : l[n]? = some a) :
    n < l.length := by
  by_contra hn
  rw [List.getElem?_eq_none (by omega)] at h
  cases h

theorem step_get (hW : W.Lawful) (fuel : Nat) {s : St K V} {sp : SpecSt K V} (h : SInv W s sp)
    (k : K) : StepOK W s sp (.get k) (step W fuel s (.get k)) := by
  refine (gethash_sat hW fuel h.tinv k (fun _ => false)).out ?_ ?_
  · rintro ⟨r, T', now'⟩ ⟨a1, a2, a3, a4⟩
    refine ⟨sp, ?_, h.evolve' a2 a3, Keeps.of_evolve h a3 (fun _ _ _ => rfl) fun _ _ => ⟨trivial, rfl⟩⟩
    simp only at a1
    rw [a1]
    exact SpecStep.get sp k
  · rintro T' now' ⟨a2, a3, a4⟩
    exact ⟨sp, SpecStep.tooLarge sp _, h.evolve' a2 a3,
      Keeps.of_evolve h a3 (fun _ _ _ => rfl) fun _ _ => ⟨trivial, rfl⟩⟩

theorem step_put (hW : W.Lawful) (fuel : Nat) {s : St K V} {sp : SpecSt K V} (h : SInv W s sp)
    (k : K) (v : V) : StepOK W s sp (.put k v) (step W fuel s (.put k v)) := by
  refine (puthash_sat hW fuel h.tinv k v (fun _ => false)).out ?_ ?_
  · rintro ⟨T', now'⟩ ⟨a2, a3, a4⟩
    exact ⟨_, SpecStep.put sp k v, h.evolve' a2 a3,
      Keeps.of_evolve h a3 (fun _ _ _ => rfl) fun _ x => by cases x⟩
  · rintro T' now' ⟨a2, a3, a4⟩
    exact ⟨sp, SpecStep.tooLarge sp _, h.evolve' a2 a3,
      Keeps.of_evolve h a3 (fun _ _ _ => rfl) fun _ x => by cases x⟩

theorem step_remove (hW : W.Lawful) (fuel : Nat) {s : St K V} {sp : SpecSt K V} (h : SInv W s sp)
    (k : K) : StepOK W s sp (.remove k) (step W fuel s (.remove k)) := by
  refine (removeKey_sat hW fuel h.tinv k).out ?_ ?_
  · rintro ⟨r, T', now'⟩ ⟨a1, a2, a3, a4⟩
    refine ⟨_, ?_, h.evolve a2 a3, Keeps.of_evolve h a3 (fun _ x => by cases x) fun _ x => by cases x⟩
    simp only at a1
    rw [a1, ← cursRemove_eq]
    exact SpecStep.remove sp k
  · rintro T' now' ⟨a2, a3, a4⟩
    exact ⟨sp, SpecStep.tooLarge sp _, h.evolve' a2 a3,
      Keeps.of_evolve h a3 (fun _ x => by cases x) fun _ x => by cases x⟩

theorem step_clear (fuel : Nat) {s : St K V} {sp : SpecSt K V} (h : SInv W s sp) :
    StepOK W s sp .clear (step W fuel s .clear) := by
  refine (removeAll_sat h.tinv (fun _ => false)).out ?_ ?_
  · rintro T' ⟨a2, a3⟩
    exact ⟨_, SpecStep.clear sp, h.evolve' a2 a3,
      Keeps.of_evolve h a3 (fun _ x => by cases x) fun _ x => by cases x⟩
  · intro T' now' x
    exact x.elim

theorem step_size (fuel : Nat) {s : St K V} {sp : SpecSt K V} (h : SInv W s sp) :
    StepOK W s sp .size (step W fuel s .size) :=
  ⟨sp, SpecStep.size sp _ h.tinv.size, h, Keeps.of_same ⟨rfl, fun _ => ⟨rfl, rfl, rfl⟩⟩
    (fun _ _ x _ => x) rfl⟩

/-- The start of an iteration over the current vector. -/
theorem SInv.start {s : St K V} {sp : SpecSt K V} (h : SInv W s sp) {T' : Tab K V} {it : Iter K}
    (he : (T', it) = nextState (s.T.modify s.T.cur incRefs)
      { source := s.T.cur, token := s.T.tv.token, index := some s.T.tv.count, key := none }) :
    SInv W { T := T', now := s.now, its := s.its ++ [it] }
      { sp with curs := sp.curs ++ [it.current.map (·, true)] } ∧ SameVecs s.T T' := by
  have hsame : SameVecs s.T (s.T.modify s.T.cur incRefs) := sameVecs_modify s.T s.T.cur (· + 1)
  have hti : TInv W (s.T.modify s.T.cur incRefs) s.now sp.m := h.tinv.modRefs s.T.cur (· + 1)
  have hrefs := refs_modify s.T s.T.cur (· + 1)
  rw [← incRefs_eq] at hrefs
  rcases nextState_spec (s.T.modify s.T.cur incRefs)
    (it := { source := s.T.cur, token := s.T.tv.token, index := some s.T.tv.count, key := none })
    rfl with ⟨j, k, v, e, h1, h2, h3⟩ | ⟨e, h1⟩
  · rw [e] at he
    obtain ⟨rfl, rfl⟩ := Prod.mk.inj he
    refine ⟨⟨hti, ?_, ?_⟩, hsame⟩
    · intro i hi
      have := h.refs i hi
      simp only [List.countP_append, List.countP_singleton, hrefs]
      rw [live_some rfl]
      simp only [decide_eq_true_eq]
      by_cases e : i = s.T.cur
      · rw [if_pos e, if_pos e.symm]; omega
      · rw [if_neg e, if_neg (Ne.symm e)]; omega
    · refine forall2_append (forall2_imp h.curs fun a b x => x.same hsame) ?_
      refine ⟨j, rfl, rfl, Nat.le_refl _, ?_, ?_, Or.inl ⟨v, h2⟩⟩
      · rw [(hsame.2 _).1]; exact h1
      · rw [(hsame.2 _).2.1]; rfl
  · rw [e] at he
    obtain ⟨rfl, rfl⟩ := Prod.mk.inj he
    have hsame' : SameVecs (s.T.modify s.T.cur incRefs)
        ((s.T.modify s.T.cur incRefs).modify s.T.cur decRefs) :=
      sameVecs_modify _ s.T.cur (· - 1)
    have hti' : TInv W ((s.T.modify s.T.cur incRefs).modify s.T.cur decRefs) s.now sp.m :=
      hti.modRefs s.T.cur (· - 1)
    have hrefs' := refs_modify (s.T.modify s.T.cur incRefs) s.T.cur (· - 1)
    rw [← decRefs_eq] at hrefs'
    have hsame2 : SameVecs s.T ((s.T.modify s.T.cur incRefs).modify s.T.cur decRefs) := by
      refine ⟨rfl, fun j => ?_⟩
      obtain ⟨a1, a2, a3⟩ := hsame.2 j
      obtain ⟨b1, b2, b3⟩ := hsame'.2 j
      exact ⟨b1.trans a1, b2.trans a2, b3.trans a3⟩
    refine ⟨⟨hti', ?_, ?_⟩, hsame2⟩
    · intro i hi
      have := h.refs i hi
      simp only [List.countP_append, List.countP_singleton, hrefs', hrefs]
      rw [live_none rfl]
      by_cases e : i = s.T.cur
      · rw [if_pos e, if_pos e]; simp; omega
      · rw [if_neg e, if_neg e]; simp; omega
    · exact forall2_append (forall2_imp h.curs fun a b x => x.same hsame2) rfl

theorem step_iterStart (hW : W.Lawful) (fuel : Nat) {s : St K V} {sp : SpecSt K V}
    (h : SInv W s sp) : StepOK W s sp .iterStart (step W fuel s .iterStart) := by
  refine (initialState_sat hW fuel h.tinv (fun _ => false)).out ?_ ?_
  · rintro ⟨it, T', now'⟩ ⟨T1, a1, a2, a3, _, a4⟩
    obtain ⟨b1, b2⟩ := (h.evolve' a1 a2).start a4
    refine ⟨_, SpecStep.iterStart sp _, b1, ?_⟩
    intro id it' hit hl hk
    obtain ⟨c1, c2, c3, c4⟩ := Keeps.of_evolve (now' := now') (sp' := sp) (op := .iterStart) h a2
      (fun _ _ _ => rfl) (fun _ _ => ⟨trivial, rfl⟩) id it' hit hl hk
    obtain ⟨d1, d2, d3⟩ := b2.2 it'.source
    simp only at d1 d2 d3 ⊢
    refine ⟨?_, by rw [d1]; exact c2, by rw [d3]; exact c3, fun x => ⟨by rw [d3]; exact (c4 x).1, by first | rfl | trivial⟩⟩
    rw [List.getElem?_append_left (lt_of_getElem? hit)]
    exact hit
  · rintro T' now' ⟨a2, a3, a4⟩
    exact ⟨sp, SpecStep.tooLarge sp _, h.evolve' a2 a3,
      Keeps.of_evolve h a3 (fun _ _ _ => rfl) fun _ _ => ⟨trivial, rfl⟩⟩

theorem step_iterNext (fuel : Nat) {s : St K V} {sp : SpecSt K V} (h : SInv W s sp) (n : Nat) :
    StepOK W s sp (.iterNext n) (step W fuel s (.iterNext n)) := by
  simp only [step]
  cases hit : s.its[n]? with
  | none =>
    exact ⟨sp, SpecStep.unknownNext sp n (forall2_none h.curs hit), h,
      Keeps.of_same ⟨rfl, fun _ => ⟨rfl, rfl, rfl⟩⟩ (fun _ _ x _ => x) rfl⟩
  | some it =>
    obtain ⟨c, hc, hrel⟩ := forall2_get h.curs hit
    have hlen : n < sp.curs.length := lt_of_getElem? hc
    have keeps : ∀ (T' : Tab K V) it' c', SameVecs s.T T' →
        Keeps s { s with T := T', its := s.its.set n it' } sp
          { sp with curs := sp.curs.set n c' } (.iterNext n) := by
      intro T' it' c' hs
      refine Keeps.of_same hs ?_ rfl
      intro id it1 h1 h2
      have : n ≠ id := by simpa [Op.keeps] using h2
      rw [getElem?_set_ne this]
      exact h1
    refine ⟨_, SpecStep.iterNext sp n _ hlen, ?_⟩
    cases hi : it.index with
    | none =>
      have e : nextState s.T it = (s.T, it) := by unfold nextState; rw [hi]
      rw [e]
      refine ⟨⟨h.tinv, ?_, ?_⟩, keeps _ _ _ ⟨rfl, fun _ => ⟨rfl, rfl, rfl⟩⟩⟩
      · intro j hj
        have := countP_set' (it' := it) hit (live j)
        have := h.refs j hj
        simp only
        omega
      · refine forall2_set h.curs n ?_
        simp only [Iter.current, hi]
        exact hi
    | some i =>
      cases c with
      | none => rw [show it.index = none from hrel] at hi; cases hi
      | some c =>
        obtain ⟨k, b⟩ := c
        obtain ⟨i', g1, g2, g3, g4, g5, g6⟩ := hrel
        rw [hi] at g1; cases g1
        rcases nextState_spec s.T hi with ⟨j, k', v, e, h1, h2, h3⟩ | ⟨e, h1⟩
        · rw [e]
          refine ⟨⟨h.tinv, ?_, ?_⟩, keeps _ _ _ ⟨rfl, fun _ => ⟨rfl, rfl, rfl⟩⟩⟩
          · intro l hl
            have h5 := countP_set' (it' := { it with index := some j, key := some k' }) hit (live l)
            have := h.refs l hl
            rw [live_some hi, live_some rfl] at h5
            simp only at h5 ⊢
            omega
          · refine forall2_set h.curs n ?_
            exact ⟨j, rfl, rfl, g3, by simp only; omega, g5, Or.inl ⟨v, h2⟩⟩
        · rw [e]
          have hsame : SameVecs s.T (s.T.modify it.source decRefs) :=
            sameVecs_modify s.T it.source (· - 1)
          have hrefs := refs_modify s.T it.source (· - 1)
          rw [← decRefs_eq] at hrefs
          refine ⟨⟨h.tinv.modRefs it.source (· - 1), ?_, ?_⟩, keeps _ _ _ hsame⟩
          · intro l hl
            have h5 := countP_set' (it' := { it with index := none }) hit (live l)
            have := h.refs l hl
            rw [live_some hi, live_none rfl] at h5
            simp only [hrefs]
            by_cases e' : l = it.source
            · rw [if_pos e']
              rw [e'] at h5 this ⊢
              simp at h5
              omega
            · rw [if_neg e']
              rw [if_neg (by simpa using Ne.symm e')] at h5
              simp at h5
              omega
          · exact forall2_set (forall2_imp h.curs fun a b x => x.same hsame) n rfl

theorem step_iterCopy (fuel : Nat) {s : St K V} {sp : SpecSt K V} (h : SInv W s sp) (n : Nat) :
    StepOK W s sp (.iterCopy n) (step W fuel s (.iterCopy n)) := by
  simp only [step]
  cases hit : s.its[n]? with
  | none =>
    exact ⟨sp, SpecStep.unknownCopy sp n (forall2_none h.curs hit), h,
      Keeps.of_same ⟨rfl, fun _ => ⟨rfl, rfl, rfl⟩⟩ (fun _ _ x _ => x) rfl⟩
  | some it =>
    obtain ⟨c, hc, hrel⟩ := forall2_get h.curs hit
    have hsame : SameVecs s.T (s.T.modify it.source incRefs) :=
      sameVecs_modify s.T it.source (· + 1)
    have hrefs := refs_modify s.T it.source (· + 1)
    rw [← incRefs_eq] at hrefs
    have hcur : it.current = c.map (·.1) := by
      cases c with
      | none =>
        have : it.index = none := hrel
        simp [Iter.current, this]
      | some c =>
        obtain ⟨i, g1, g2, _⟩ := hrel
        simp [Iter.current, g1, g2]
    refine ⟨{ sp with curs := sp.curs ++ [c] }, ?_, ⟨h.tinv.modRefs it.source (· + 1), ?_, ?_⟩, ?_⟩
    · rw [hcur]
      exact SpecStep.iterCopy sp n c hc
    · intro l hl
      have := h.refs l hl
      simp only [copyState, List.countP_append, List.countP_singleton, hrefs]
      by_cases e : l = it.source
      · rw [if_pos e]
        split <;> omega
      · rw [if_neg e]
        have : live l it = false := by simp [live, Ne.symm e]
        rw [this]
        simp
        omega
    · exact forall2_append (forall2_imp h.curs fun a b x => x.same hsame) (hrel.same hsame)
    · refine Keeps.of_same hsame ?_ rfl
      intro id it1 h1 _
      simp only [copyState]
      rw [List.getElem?_append_left (lt_of_getElem? h1)]
      exact h1

/-- What `current-element` shows. -/
theorem step_iterElem (hW : W.Lawful) (fuel : Nat) {s : St K V} {sp : SpecSt K V}
    (h : SInv W s sp) (n : Nat) :
    StepOK W s sp (.iterElem n) (step W fuel s (.iterElem n)) := by
  simp only [step]
  have same : Keeps s s sp sp (.iterElem n) :=
    Keeps.of_same ⟨rfl, fun _ => ⟨rfl, rfl, rfl⟩⟩ (fun _ _ x _ => x) rfl
  cases hit : s.its[n]? with
  | none => exact ⟨sp, SpecStep.unknownElem sp n (forall2_none h.curs hit), h, same⟩
  | some it =>
    obtain ⟨c, hc, hrel⟩ := forall2_get h.curs hit
    simp only
    cases c with
    | none =>
      have hi : it.index = none := hrel
      have e : currentElement W fuel s.now s.T it = .ok (none, s.T, s.now) := by
        unfold currentElement; rw [hi]
      rw [e]
      exact ⟨sp, SpecStep.iterElemEnd sp n hc, h, same⟩
    | some c =>
      obtain ⟨k, b⟩ := c
      obtain ⟨i, g1, g2, g3, g4, g5, g6⟩ := hrel
      have look : ∀ v, StepOK W s sp (.iterElem n)
          (((gethash W fuel s.now s.T k).bind fun r => .ok (some (r.1.getD v), r.2)).out s fun r =>
            (elemObs r.1, { s with T := r.2.1, now := r.2.2 })) := by
        intro v
        refine Res.Sat.out (P := fun r => ∃ v', r.1 = some v' ∧ (sp.m k = some v' ∨ sp.m k = none) ∧
            TInv W r.2.1 r.2.2 sp.m ∧ Evolve True (fun _ => false) s.T r.2.1)
          (Q := fun T' now' => TInv W T' now' sp.m ∧ Evolve True (fun _ => false) s.T T') ?_ ?_ ?_
        · refine (gethash_sat hW fuel h.tinv k (fun _ => false)).bind ?_ ?_
          · rintro ⟨r, T', now'⟩ ⟨a1, a2, a3, a4⟩
            simp only at a1
            refine ⟨_, rfl, ?_, a2, a3⟩
            rw [a1]
            cases sp.m k with
            | none => exact Or.inr rfl
            | some v' => exact Or.inl rfl
          · rintro T' now' ⟨a2, a3, a4⟩
            exact ⟨a2, a3⟩
        · rintro ⟨r, T', now'⟩ ⟨v', rfl, a1, a2, a3⟩
          refine ⟨sp, ?_, h.evolve' a2 a3,
            Keeps.of_evolve h a3 (fun _ _ _ => rfl) fun _ _ => ⟨trivial, rfl⟩⟩
          rcases a1 with a1 | a1
          · exact SpecStep.iterElem sp n k b v' hc a1
          · exact SpecStep.iterElemGone sp n k b v' hc a1
        · rintro T' now' ⟨a2, a3⟩
          exact ⟨sp, SpecStep.tooLarge sp _, h.evolve' a2 a3,
            Keeps.of_evolve h a3 (fun _ _ _ => rfl) fun _ _ => ⟨trivial, rfl⟩⟩
      unfold currentElement
      simp only [g1, g2]
      rcases g6 with ⟨v, e⟩ | ⟨hb, o, e⟩
      · rw [e]
        simp only
        by_cases hv : tokenValid s.T it = true
        · rw [if_pos hv]
          refine ⟨sp, SpecStep.iterElem sp n k b v hc ?_, h, same⟩
          have hcur : it.source = s.T.cur := by
            by_contra hne
            have := h.tinv.old it.source (Nat.lt_of_le_of_ne g3 hne)
            unfold tokenValid at hv
            rw [this] at hv
            cases hv
          rw [hcur] at e g4
          exact h.tinv.found g4 e (hW.refl k)
        · rw [if_neg hv]
          exact look v
      · rw [e]
        cases o with
        | none =>
          rw [hb] at hc
          exact ⟨sp, SpecStep.iterElemRemoved sp n k hc, h, same⟩
        | some v => exact look v

theorem step_iterSet (hW : W.Lawful) (fuel : Nat) {s : St K V} {sp : SpecSt K V}
    (h : SInv W s sp) (n : Nat) (v : V) :
    StepOK W s sp (.iterSet n v) (step W fuel s (.iterSet n v)) := by
  simp only [step]
  have same : Keeps s s sp sp (.iterSet n v) :=
    Keeps.of_same ⟨rfl, fun _ => ⟨rfl, rfl, rfl⟩⟩ (fun _ _ x _ => x) rfl
  cases hit : s.its[n]? with
  | none => exact ⟨sp, SpecStep.unknownSet sp n v (forall2_none h.curs hit), h, same⟩
  | some it =>
    obtain ⟨c, hc, hrel⟩ := forall2_get h.curs hit
    simp only
    cases c with
    | none =>
      have hi : it.index = none := hrel
      have e : setCurrentElement W fuel s.now s.T it v = .ok (false, s.T, s.now) := by
        unfold setCurrentElement; rw [hi]
      rw [e]
      exact ⟨sp, SpecStep.iterSetEnd sp n v hc, h, same⟩
    | some c =>
      obtain ⟨k, b⟩ := c
      obtain ⟨i, m', g1, g2, g3, g4, g5, g6⟩ :=
        storeValue_sat hW h.tinv hrel v (fun _ => false)
      unfold setCurrentElement
      simp only [g1, g2]
      have hput : mapPut W.eq m' k v = mapPut W.eq sp.m k v := by
        rcases g3 with e | e
        · rw [e]
        · rw [e, mapPut_twice]
      by_cases hd : (isDeleted (((s.T.modify it.source (storeValue i v)).vecs it.source).slots i) ||
          !tokenValid (s.T.modify it.source (storeValue i v)) it) = true
      · rw [if_pos hd]
        refine Res.Sat.out (P := fun r => r.1 = true ∧
            TInv W r.2.1 r.2.2 (mapPut W.eq sp.m k v) ∧ Evolve False (fun _ => false) s.T r.2.1)
          (Q := fun T' now' => TInv W T' now' m' ∧ Evolve False (fun _ => false) s.T T') ?_ ?_ ?_
        · refine (puthash_sat hW fuel g4 k v (fun _ => false)).bind ?_ ?_
          · rintro ⟨T', now'⟩ ⟨a2, a3, a4⟩
            rw [hput] at a2
            exact ⟨rfl, a2, g5.trans a3⟩
          · rintro T' now' ⟨a2, a3, a4⟩
            exact ⟨a2, g5.trans a3⟩
        · rintro ⟨r, T', now'⟩ ⟨rfl, a2, a3⟩
          exact ⟨_, SpecStep.iterSet sp n k b v hc, h.evolve' a2 a3,
            Keeps.of_evolve h a3 (fun _ _ _ => rfl) fun _ x => by cases x⟩
        · rintro T' now' ⟨a2, a3⟩
          refine ⟨{ sp with m := m' }, ?_, h.evolve' a2 a3,
            Keeps.of_evolve h a3 (fun _ _ _ => rfl) fun _ x => by cases x⟩
          rcases g3 with e | e
          · rw [e]; exact SpecStep.tooLarge sp _
          · rw [e]; exact SpecStep.tooLargeSet sp n k b v hc
      · rw [if_neg hd]
        simp at hd
        have e := g6 hd.1 hd.2
        rw [e] at g4
        exact ⟨_, SpecStep.iterSet sp n k b v hc, h.evolve' g4 g5,
          Keeps.of_evolve h g5 (fun _ _ _ => rfl) fun _ x => by cases x⟩

/-- Every step conforms to the specification. -/
theorem step_ok (hW : W.Lawful) (fuel : Nat) {s : St K V} {sp : SpecSt K V} (h : SInv W s sp)
    (op : Op K V) : StepOK W s sp op (step W fuel s op) := by
  cases op with
  | get k => exact step_get hW fuel h k
  | put k v => exact step_put hW fuel h k v
  | remove k => exact step_remove hW fuel h k
  | clear => exact step_clear fuel h
  | size => exact step_size fuel h
  | iterStart => exact step_iterStart hW fuel h
  | iterNext n => exact step_iterNext fuel h n
  | iterCopy n => exact step_iterCopy fuel h n
  | iterElem n => exact step_iterElem hW fuel h n
  | iterSet n v => exact step_iterSet hW fuel h n v

/-- Every history conforms to the specification. -/
theorem run_ok (hW : W.Lawful) (fuel : Nat) (ops : List (Op K V)) : ∀ {s : St K V}
    {sp : SpecSt K V}, SInv W s sp →
    match run W fuel s ops with
    | .ok (os, s') => ∃ sp', SpecRun W.eq sp ops os sp' ∧ SInv W s' sp'
    | .diverge => False
    | .running => True := by
  induction ops with
  | nil => intro s sp h; exact ⟨sp, SpecRun.nil sp, h⟩
  | cons op ops ih =>
    intro s sp h
    have hs := step_ok hW fuel h op
    simp only [run]
    cases hst : step W fuel s op with
    | diverge => rw [hst] at hs; exact hs
    | running => trivial
    | ok r =>
      obtain ⟨o, s1⟩ := r
      rw [hst] at hs
      obtain ⟨sp1, a1, a2, _⟩ := hs
      have hr := ih a2
      simp only
      cases hrun : run W fuel s1 ops with
      | diverge => rw [hrun] at hr; exact hr
      | running => trivial
      | ok r =>
        obtain ⟨os, s2⟩ := r
        rw [hrun] at hr
        obtain ⟨sp2, b1, b2⟩ := hr
        exact ⟨sp2, SpecRun.cons a1 b1, b2⟩

/-- A new table. -/
theorem make_inv {initial : Int} {grow : Int → Int} {T : Tab K V}
    (h : make initial grow = some T) : SInv W { T := T, now := 0, its := [] } SpecSt.init := by
  unfold make at h
  cases hc : computeEntryCount initial with
  | none => rw [hc] at h; cases h
  | some c =>
    rw [hc] at h
    cases h
    have hg := (computeEntryCount_spec hc).1
    refine ⟨⟨mkTV_inv hg 0, Rep.empty fun _ => rfl, ?_, ?_, ?_⟩, fun _ _ => Nat.zero_le _,
      List.Forall₂.nil⟩
    · intro j hj; cases hj
    · intro j _ a b k v k' v' _ _ e; cases e
    · simp only [hc]; simp

end Verif.Table
