import Verif.Table.Ops

/-! # Helper lemmas for hash tables: iterations and histories -/

namespace Verif.Table

variable {K V : Type} {W : World K}

/-! ### iterations -/

/-- The iteration is in progress and goes over table vector `j`. -/
def live (j : Nat) (it : Iter K) : Bool := it.index.isSome && decide (it.source = j)

/-- How an iteration relates to its current key. -/
def CurRel (T : Tab K V) (it : Iter K) : Option (K × Bool) → Prop
  | none => it.index = none
  | some (k, b) => ∃ i, it.index = some i ∧ it.key = some k ∧ it.source ≤ T.cur ∧
      i < (T.vecs it.source).count ∧ it.token = (T.vecs it.source).token ∧
      ((∃ v, (T.vecs it.source).slots i = .full k v) ∨
        (b = false ∧ ∃ o, (T.vecs it.source).slots i = .deleted o))

/-- The flags after the keys `rm` have been removed. -/
def cursRm (rm : K → Bool) : Option (K × Bool) → Option (K × Bool)
  | none => none
  | some (k, b) => some (k, b && !rm k)

theorem cursRm_false : cursRm (fun _ : K => false) = id := by
  funext c
  cases c with
  | none => rfl
  | some c => simp [cursRm]

theorem cursRemove_eq (eq : K → K → Bool) (k : K) : cursRemove eq k = cursRm (eq k) := by
  funext c
  cases c with
  | none => rfl
  | some c => rfl

theorem CurRel.evolve {ro : Prop} {rm : K → Bool} {T T' : Tab K V} {it : Iter K}
    {c : Option (K × Bool)} (h : CurRel T it c) (he : Evolve ro rm T T')
    (hr : it.index ≠ none → (T.vecs it.source).refs ≠ 0) : CurRel T' it (cursRm rm c) := by
  cases c with
  | none => exact h
  | some c =>
    obtain ⟨k, b⟩ := c
    obtain ⟨i, h1, h2, h3, h4, h5, h6⟩ := h
    have hne := hr (by rw [h1]; simp)
    obtain ⟨s1, s2, _⟩ := he.same _ h3 hne
    refine ⟨i, h1, h2, Nat.le_trans h3 he.cur, by rw [s1]; exact h4, by rw [s2]; exact h5, ?_⟩
    rcases h6 with ⟨v, e⟩ | ⟨hb, o, e⟩
    · rcases he.full _ h3 hne i k v e with a | ⟨hk, a⟩
      · exact Or.inl a
      · exact Or.inr ⟨by rw [hk]; simp, a⟩
    · exact Or.inr ⟨by rw [hb]; rfl, he.deleted _ h3 hne i o e⟩

/-- The two tables differ at most in the reference counts of their vectors. -/
def SameVecs (T T' : Tab K V) : Prop :=
  T'.cur = T.cur ∧ ∀ j, (T'.vecs j).count = (T.vecs j).count ∧
    (T'.vecs j).token = (T.vecs j).token ∧ (T'.vecs j).slots = (T.vecs j).slots

theorem CurRel.same {T T' : Tab K V} {it : Iter K} {c : Option (K × Bool)} (h : CurRel T it c)
    (hs : SameVecs T T') : CurRel T' it c := by
  cases c with
  | none => exact h
  | some c =>
    obtain ⟨k, b⟩ := c
    unfold CurRel at *
    obtain ⟨h0, h1⟩ := hs
    obtain ⟨a1, a2, a3⟩ := h1 it.source
    simp only [h0, a1, a2, a3]
    exact h

theorem sameVecs_modify (T : Tab K V) (n : Nat) (g : Nat → Nat) :
    SameVecs T (T.modify n fun tv => { tv with refs := g tv.refs }) := by
  refine ⟨rfl, fun j => ?_⟩
  by_cases e : j = n
  · subst e; rw [modify_self]; exact ⟨rfl, rfl, rfl⟩
  · rw [modify_other _ _ e]; exact ⟨rfl, rfl, rfl⟩

theorem TInv.modRefs {T : Tab K V} {now : Nat} {m : K → Option V} (h : TInv W T now m) (n : Nat)
    (g : Nat → Nat) : TInv W (T.modify n fun tv => { tv with refs := g tv.refs }) now m := by
  by_cases e : n = T.cur
  · subst e
    exact h.modify ⟨h.inv.good, h.inv.adds, h.inv.dels, h.inv.lim, h.inv.uniq, h.inv.placed,
      h.inv.time⟩ h.rep
  · have htv : (T.modify n fun tv => { tv with refs := g tv.refs }).tv = T.tv :=
      modify_other _ _ (Ne.symm e)
    refine ⟨by rw [htv]; exact h.inv, by rw [htv]; exact h.rep, ?_, ?_, h.init⟩
    · intro j hj
      by_cases e' : j = n
      · subst e'; rw [modify_self]; exact h.old j hj
      · rw [modify_other _ _ e']; exact h.old j hj
    · intro j hj
      by_cases e' : j = n
      · subst e'; rw [modify_self]; exact h.uniqs j hj
      · rw [modify_other _ _ e']; exact h.uniqs j hj

theorem refs_modify (T : Tab K V) (n : Nat) (g : Nat → Nat) (j : Nat) :
    ((T.modify n fun tv => { tv with refs := g tv.refs }).vecs j).refs
      = if j = n then g (T.vecs j).refs else (T.vecs j).refs := by
  by_cases e : j = n
  · subst e; rw [modify_self, if_pos rfl]
  · rw [modify_other _ _ e, if_neg e]

theorem incRefs_eq : (incRefs : TV K V → TV K V) = fun tv => { tv with refs := (· + 1) tv.refs } := rfl

theorem decRefs_eq : (decRefs : TV K V → TV K V) = fun tv => { tv with refs := (· - 1) tv.refs } := rfl

theorem prevFull_spec (slots : Nat → Slot K V) (n : Nat) :
    match prevFull slots n with
    | some (j, k) => j < n ∧ (∃ v, slots j = .full k v) ∧
        ∀ l, j < l → l < n → isEntry (slots l) = false
    | none => ∀ l, l < n → isEntry (slots l) = false := by
  induction n with
  | zero => simp [prevFull]
  | succ n ih =>
    have skip : isEntry (slots n) = false → prevFull slots (n + 1) = prevFull slots n →
        match prevFull slots (n + 1) with
        | some (j, k) => j < n + 1 ∧ (∃ v, slots j = .full k v) ∧
            ∀ l, j < l → l < n + 1 → isEntry (slots l) = false
        | none => ∀ l, l < n + 1 → isEntry (slots l) = false := by
      intro hs he
      rw [he]
      cases hp : prevFull slots n with
      | none =>
        rw [hp] at ih
        intro l hl
        by_cases e : l = n
        · rw [e]; exact hs
        · exact ih l (by omega)
      | some jk =>
        obtain ⟨j, k⟩ := jk
        rw [hp] at ih
        refine ⟨by have := ih.1; omega, ih.2.1, fun l h1 h2 => ?_⟩
        by_cases e : l = n
        · rw [e]; exact hs
        · exact ih.2.2 l h1 (by omega)
    cases hs : slots n with
    | empty => exact skip (by rw [hs]; rfl) (by simp [prevFull, hs])
    | deleted o => exact skip (by rw [hs]; rfl) (by simp [prevFull, hs])
    | full k v =>
      have : prevFull slots (n + 1) = some (n, k) := by simp [prevFull, hs]
      rw [this]
      exact ⟨by omega, ⟨v, hs⟩, fun l h1 h2 => by omega⟩

/-- The cursor of an iteration in progress moves to the next entry below, or ends. -/
theorem nextState_spec (T : Tab K V) {it : Iter K} {i : Nat} (hi : it.index = some i) :
    (∃ j k v, nextState T it = (T, { it with index := some j, key := some k }) ∧ j < i ∧
      (T.vecs it.source).slots j = .full k v ∧
      ∀ l, j < l → l < i → isEntry ((T.vecs it.source).slots l) = false) ∨
    (nextState T it = (T.modify it.source decRefs, { it with index := none }) ∧
      ∀ l, l < i → isEntry ((T.vecs it.source).slots l) = false) := by
  have hp := prevFull_spec (T.vecs it.source).slots i
  unfold nextState
  rw [hi]
  simp only
  cases h : prevFull (T.vecs it.source).slots i with
  | none => rw [h] at hp; exact Or.inr ⟨rfl, hp⟩
  | some jk =>
    obtain ⟨j, k⟩ := jk
    rw [h] at hp
    obtain ⟨h1, ⟨v, h2⟩, h3⟩ := hp
    exact Or.inl ⟨j, k, v, rfl, h1, h2, h3⟩

theorem initialState_sat (hW : W.Lawful) (fuel : Nat) : ∀ {T : Tab K V} {now : Nat}
    {m : K → Option V} (_ : TInv W T now m) (rm : K → Bool),
    (initialState W fuel now T).Sat
      (fun r => ∃ T1, TInv W T1 r.2.2 m ∧ Evolve True rm T T1 ∧ now ≤ r.2.2 ∧
        T1.tv.rehashing = false ∧
        (r.2.1, r.1) = nextState (T1.modify T1.cur incRefs)
          { source := T1.cur, token := T1.tv.token, index := some T1.tv.count, key := none })
      (fun T' now' => TInv W T' now' m ∧ Evolve True rm T T' ∧ now ≤ now') := by
  induction fuel with
  | zero => intros; trivial
  | succ fuel ih =>
    intro T now m h rm
    simp only [initialState]
    by_cases hr : needsRehash W now T.tv = true
    · rw [if_pos hr]
      refine (rehashTable_sat hW (h.later (Nat.le_add_right now 1)) false rm).bind ?_ ?_
      · rintro ⟨T', now'⟩ ⟨a1, a2, a3, _⟩
        have a3' := Nat.le_trans (Nat.le_add_right now 1) a3
        refine (ih a1 rm).mono ?_ ?_
        · rintro ⟨o, T'', now''⟩ ⟨T1, b1, b2, b3, b4⟩
          exact ⟨T1, b1, a2.trans b2, Nat.le_trans a3' b3, b4⟩
        · rintro T'' now'' ⟨b2, b3, b4⟩
          exact ⟨b2, a2.trans b3, Nat.le_trans a3' b4⟩
      · rintro T' now' ⟨a1, a2, a3⟩
        exact ⟨a1, a2, by omega⟩
    · rw [if_neg hr]
      refine ⟨T, h.later (Nat.le_add_right now 1), Evolve.refl T, Nat.le_add_right now 1, ?_, rfl⟩
      simp [needsRehash] at hr
      simpa using hr.1

/-! ### the invariant of a history -/

/-- The state of the program relates to the map and the cursors. -/
structure SInv (W : World K) (s : St K V) (sp : SpecSt K V) : Prop where
  tinv : TInv W s.T s.now sp.m
  refs : ∀ j, j ≤ s.T.cur → s.its.countP (live j) ≤ (s.T.vecs j).refs
  curs : List.Forall₂ (CurRel s.T) s.its sp.curs

theorem forall2_mem {α β : Type} {R : α → β → Prop} {l : List α} {l' : List β}
    (h : List.Forall₂ R l l') {a : α} (ha : a ∈ l) : ∃ b, R a b := by
  induction h with
  | nil => cases ha
  | cons h1 _ ih =>
    rcases List.mem_cons.1 ha with e | e
    · subst e; exact ⟨_, h1⟩
    · exact ih e

theorem CurRel.source {T : Tab K V} {it : Iter K} {c : Option (K × Bool)} (h : CurRel T it c)
    (hl : it.index ≠ none) : it.source ≤ T.cur := by
  cases c with
  | none => exact absurd h hl
  | some c => obtain ⟨i, _, _, h3, _⟩ := h; exact h3

/-- The vector of an iteration in progress is referred to. -/
theorem SInv.live_refs {s : St K V} {sp : SpecSt K V} (h : SInv W s sp) {it : Iter K}
    (hm : it ∈ s.its) (hl : it.index ≠ none) :
    it.source ≤ s.T.cur ∧ (s.T.vecs it.source).refs ≠ 0 := by
  obtain ⟨c, hc⟩ := forall2_mem h.curs hm
  have hs := hc.source hl
  refine ⟨hs, ?_⟩
  have h1 := h.refs _ hs
  have h2 : 0 < s.its.countP (live it.source) := by
    rw [List.countP_pos_iff]
    refine ⟨it, hm, ?_⟩
    unfold live
    cases hi : it.index with
    | none => exact absurd hi hl
    | some i => simp
  omega

theorem forall2_map {α β γ : Type} {R : α → β → Prop} {R' : α → γ → Prop} {f : β → γ}
    {l : List α} {l' : List β} (h : List.Forall₂ R l l') (hf : ∀ a ∈ l, ∀ b, R a b → R' a (f b)) :
    List.Forall₂ R' l (l'.map f) := by
  induction h with
  | nil => exact List.Forall₂.nil
  | cons h1 _ ih =>
    exact List.Forall₂.cons (hf _ (by simp) _ h1) (ih fun a ha => hf a (by simp [ha]))

theorem countP_zero_of {its : List (Iter K)} {T : Tab K V} {curs : List (Option (K × Bool))}
    (h : List.Forall₂ (CurRel T) its curs) {j : Nat} (hj : T.cur < j) :
    its.countP (live j) = 0 := by
  rw [List.countP_eq_zero]
  intro it hit hl
  obtain ⟨c, hc⟩ := forall2_mem h hit
  unfold live at hl
  simp at hl
  have := hc.source (by intro e; rw [e] at hl; simp at hl)
  omega

theorem SInv.evolve {ro : Prop} {rm : K → Bool} {s : St K V} {sp : SpecSt K V} {T' : Tab K V}
    {now' : Nat} {m' : K → Option V} (h : SInv W s sp) (ht : TInv W T' now' m')
    (he : Evolve ro rm s.T T') :
    SInv W { s with T := T', now := now' } { m := m', curs := sp.curs.map (cursRm rm) } := by
  refine ⟨ht, ?_, ?_⟩
  · intro j hj
    by_cases hc : j ≤ s.T.cur
    · simp only
      rw [he.refs j hc]
      exact h.refs j hc
    · simp only
      rw [countP_zero_of h.curs (by omega)]
      exact Nat.zero_le _
  · refine forall2_map h.curs ?_
    intro it hit c hc
    exact hc.evolve he fun hl => (h.live_refs hit hl).2

theorem SInv.evolve' {ro : Prop} {s : St K V} {sp : SpecSt K V} {T' : Tab K V}
    {now' : Nat} {m' : K → Option V} (h : SInv W s sp) (ht : TInv W T' now' m')
    (he : Evolve ro (fun _ => false) s.T T') :
    SInv W { s with T := T', now := now' } { sp with m := m' } := by
  have := h.evolve ht he
  rwa [cursRm_false, List.map_id] at this

/-- What a step that neither removes nor advances an iteration leaves alone. -/
def Keeps (s s' : St K V) (sp sp' : SpecSt K V) (op : Op K V) : Prop :=
  ∀ id it, s.its[id]? = some it → it.index ≠ none → op.keeps id = true →
    s'.its[id]? = some it ∧
    (s'.T.vecs it.source).count = (s.T.vecs it.source).count ∧
    (∀ i k v, (s.T.vecs it.source).slots i = .full k v →
      ∃ v', (s'.T.vecs it.source).slots i = .full k v') ∧
    (op.readOnly id = true →
      (s'.T.vecs it.source).slots = (s.T.vecs it.source).slots ∧ sp'.m = sp.m)

theorem Keeps.of_evolve {ro : Prop} {rm : K → Bool} {s : St K V} {sp : SpecSt K V} {T' : Tab K V}
    {now' : Nat} {sp' : SpecSt K V} {op : Op K V} (h : SInv W s sp) (he : Evolve ro rm s.T T')
    (hrm : ∀ id, op.keeps id = true → ∀ k, rm k = false)
    (hro : ∀ id, op.readOnly id = true → ro ∧ sp'.m = sp.m) :
    Keeps s { s with T := T', now := now' } sp sp' op := by
  intro id it hit hl hk
  obtain ⟨h1, h2⟩ := h.live_refs (List.mem_of_getElem? hit) hl
  obtain ⟨s1, _, s3⟩ := he.same _ h1 h2
  refine ⟨hit, s1, ?_, fun x => ⟨s3 (hro id x).1, (hro id x).2⟩⟩
  intro i k v e
  rcases he.full _ h1 h2 i k v e with a | ⟨a, _⟩
  · exact a
  · rw [hrm id hk k] at a; cases a

theorem Keeps.of_same {s s' : St K V} {sp sp' : SpecSt K V} {op : Op K V} (hs : SameVecs s.T s'.T)
    (hi : ∀ id it, s.its[id]? = some it → op.keeps id = true → s'.its[id]? = some it)
    (hm : sp'.m = sp.m) : Keeps s s' sp sp' op := by
  intro id it hit _ hk
  obtain ⟨a1, _, a3⟩ := hs.2 it.source
  exact ⟨hi id it hit hk, a1, fun i k v e => ⟨v, by rw [a3]; exact e⟩, fun _ => ⟨a3, hm⟩⟩

/-- The outcome of a step conforms to the specification. -/
def StepOK (W : World K) (s : St K V) (sp : SpecSt K V) (op : Op K V) :
    Out K V (Obs K V × St K V) → Prop
  | .ok (o, s') => ∃ sp', SpecStep W.eq sp op o sp' ∧ SInv W s' sp' ∧ Keeps s s' sp sp' op
  | .diverge => False
  | .running => True

theorem Res.Sat.out {α : Type} {r : Res K V α} {P : α → Prop} {Q : Tab K V → Nat → Prop}
    (h : r.Sat P Q) {s : St K V} {sp : SpecSt K V} {op : Op K V} {f : α → Obs K V × St K V}
    (hp : ∀ a, P a → StepOK W s sp op (.ok (f a)))
    (hq : ∀ T now, Q T now → StepOK W s sp op (.ok (.tooLarge, { s with T := T, now := now }))) :
    StepOK W s sp op (r.out s f) := by
  cases r with
  | ok a => exact hp a h
  | tooLarge T now => exact hq T now h
  | diverge => exact h
  | running => trivial

theorem forall2_get {α β : Type} {R : α → β → Prop} {l : List α} {l' : List β}
    (h : List.Forall₂ R l l') {n : Nat} {a : α} (ha : l[n]? = some a) :
    ∃ b, l'[n]? = some b ∧ R a b := by
  induction h generalizing n with
  | nil => simp at ha
  | cons h1 _ ih =>
    cases n with
    | zero => simp at ha; subst ha; exact ⟨_, by simp, h1⟩
    | succ n => simp at ha; simpa using ih ha

theorem forall2_none {α β : Type} {R : α → β → Prop} {l : List α} {l' : List β}
    (h : List.Forall₂ R l l') {n : Nat} (ha : l[n]? = none) : l'.length ≤ n := by
  rw [List.getElem?_eq_none_iff, h.length_eq] at ha
  exact ha

theorem forall2_set {α β : Type} {R : α → β → Prop} {l : List α} {l' : List β}
    (h : List.Forall₂ R l l') (n : Nat) {a : α} {b : β} (hab : R a b) :
    List.Forall₂ R (l.set n a) (l'.set n b) := by
  induction h generalizing n with
  | nil => simp
  | cons h1 h2 ih =>
    cases n with
    | zero => simp only [List.set_cons_zero]; exact List.Forall₂.cons hab h2
    | succ n => simp only [List.set_cons_succ]; exact List.Forall₂.cons h1 (ih n)

theorem forall2_append {α β : Type} {R : α → β → Prop} {l : List α} {l' : List β}
    (h : List.Forall₂ R l l') {a : α} {b : β} (hab : R a b) :
    List.Forall₂ R (l ++ [a]) (l' ++ [b]) := by
  induction h with
  | nil => exact List.Forall₂.cons hab List.Forall₂.nil
  | cons h1 _ ih => exact List.Forall₂.cons h1 ih

theorem forall2_imp {α β : Type} {R R' : α → β → Prop} {l : List α} {l' : List β}
    (h : List.Forall₂ R l l') (hr : ∀ a b, R a b → R' a b) : List.Forall₂ R' l l' := by
  induction h with
  | nil => exact List.Forall₂.nil
  | cons h1 _ ih => exact List.Forall₂.cons (hr _ _ h1) ih

end Verif.Table
