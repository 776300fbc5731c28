import Verif.Table.Sim

/-! # Helper lemmas for hash tables: the operations end -/

namespace Verif.Table

variable {K V : Type} {W : World K}

/-- The operation has ended; if without an error, its result satisfies `P`. -/
def Res.Done {α : Type} (r : Res K V α) (P : α → Prop) : Prop :=
  match r with
  | .ok a => P a
  | .tooLarge _ _ => True
  | .diverge => True
  | .running => False

theorem Res.Done.bind {α β : Type} {r : Res K V α} {f : α → Res K V β} {P : α → Prop}
    {P' : β → Prop} (h : r.Done P) (hf : ∀ a, P a → (f a).Done P') : (r.bind f).Done P' := by
  cases r with
  | ok a => exact hf a h
  | tooLarge T now => trivial
  | diverge => trivial
  | running => exact h

/-- The table is not marked as being rehashed, and all its hash states are from time `t` on. -/
def Settled (t : Nat) (T : Tab K V) : Prop :=
  T.tv.rehashing = false ∧ ∀ d ∈ T.tv.deps, t ≤ d.2

theorem quiet_stale {t : Nat} (hq : W.Quiet t) {now : Nat} (hn : t ≤ now) {deps : List (K × Nat)}
    (hd : ∀ d ∈ deps, t ≤ d.2) : isStale W now deps = false := by
  unfold isStale
  rw [(hq now hn).1, Bool.or_false, List.any_eq_false]
  intro d hmem hm
  unfold moved at hm
  rw [List.any_eq_true] at hm
  obtain ⟨u, _, hu⟩ := hm
  simp at hu
  have h1 := hd d hmem
  exact hu.2 (by rw [(hq u (by omega)).2, (hq d.2 h1).2])

theorem Settled.needs {t : Nat} (hq : W.Quiet t) {T : Tab K V} (h : Settled t T) {now : Nat}
    (hn : t ≤ now) : needsRehash W now T.tv = false := by
  unfold needsRehash
  rw [h.1, quiet_stale hq hn h.2]
  rfl

/-- After a rehash the table is settled. -/
theorem rehash_done (hW : W.Lawful) {T : Tab K V} {now : Nat} {m : K → Option V}
    (h : TInv W T now m) (grow : Bool) :
    (rehashTable W now T grow).Done (fun r => TInv W r.1 r.2 m ∧ now ≤ r.2 ∧
      r.1.tv.rehashing = false ∧ (∀ d ∈ r.1.tv.deps, now ≤ d.2) ∧
      (grow = true ∨ isFull T.tv = false → isFull r.1.tv = false)) := by
  have := rehashTable_sat hW h grow (fun _ => false)
  cases hr : rehashTable W now T grow with
  | ok r =>
    rw [hr] at this
    obtain ⟨a1, _, a2, a3, a4, a5, _⟩ := this
    exact ⟨a1, a2, a3, a4, a5⟩
  | tooLarge T' now' => trivial
  | diverge => trivial
  | running => rw [hr] at this; exfalso; unfold rehashTable at hr
               split at hr
               · unfold rehashInPlace at hr; split at hr <;> cases hr
               · split at hr
                 · cases hr
                 · unfold rehashIntoCopy at hr; split at hr <;> cases hr

/-! ### lookup -/

theorem gethash_settled {t : Nat} (hq : W.Quiet t) {T : Tab K V} {now : Nat}
    {m : K → Option V} (h : TInv W T now m) (hs : Settled t T) (hn : t ≤ now) (fuel : Nat) (key : K) :
    (gethash W (fuel + 1) now T key).Done (fun r => r.2.1.tv.rehashing = false) := by
  obtain ⟨j, h1, h2, h3, h4⟩ := h.search key (W.hash now key)
  simp only [gethash, h1]
  rcases h4 with he | ⟨k, v, he, hk⟩
  · rw [he]
    simp only
    rw [hs.needs hq (by omega)]
    exact hs.1
  · rw [he]
    simp only
    rw [hs.1]
    exact hs.1

theorem gethash_term (hW : W.Lawful) {t : Nat} (hq : W.Quiet t) (fuel : Nat) :
    ∀ {T : Tab K V} {now : Nat} {m : K → Option V}, TInv W T now m → T.tv.rehashing = false →
    t - now + 2 ≤ fuel → ∀ key,
    (gethash W fuel now T key).Done (fun r => r.2.1.tv.rehashing = false) := by
  induction fuel with
  | zero => intro T now m _ _ hf; omega
  | succ fuel ih =>
    intro T now m h hr hf key
    obtain ⟨j, h1, h2, h3, h4⟩ := h.search key (W.hash now key)
    simp only [gethash, h1]
    rcases h4 with he | ⟨k, v, he, hk⟩
    · rw [he]
      simp only
      by_cases hnr : needsRehash W (now + 1) T.tv = true
      · rw [if_pos hnr]
        refine (rehash_done hW (h.later (Nat.le_add_right now 2)) false).bind ?_
        rintro ⟨T', now'⟩ ⟨a1, a2, a3, a4, _⟩
        simp only at a1 a2 a3 a4
        by_cases ht : now < t
        · exact ih a1 a3 (by omega) key
        · obtain ⟨f, rfl⟩ : ∃ f, fuel = f + 1 := ⟨fuel - 1, by omega⟩
          exact gethash_settled hq a1 ⟨a3, fun d hd => by have := a4 d hd; omega⟩ (by omega) f key
      · rw [if_neg hnr]
        exact hr
    · rw [he]
      simp only
      rw [hr]
      exact hr

/-! ### removal -/

theorem modify_rehashing {T : Tab K V} {n : Nat} {f : TV K V → TV K V}
    (hf : ∀ tv, (f tv).rehashing = tv.rehashing) :
    (T.modify n f).tv.rehashing = T.tv.rehashing := by
  by_cases e : T.cur = n
  · subst e; rw [modify_tv, hf]
  · show ((T.modify n f).vecs T.cur).rehashing = _
    rw [modify_other _ _ e]; rfl

theorem unmarked {T : Tab K V} {n : Nat} {f : TV K V → TV K V} (hr : T.tv.rehashing = false)
    (hf : ∀ tv, (f tv).rehashing = tv.rehashing) : (T.modify n f).tv.rehashing = false :=
  (modify_rehashing hf).trans hr

theorem removeKey_settled {t : Nat} (hq : W.Quiet t) {T : Tab K V} {now : Nat}
    {m : K → Option V} (h : TInv W T now m) (hs : Settled t T) (hn : t ≤ now) (fuel : Nat) (key : K) :
    (removeKey W (fuel + 1) now T key).Done (fun r => r.2.1.tv.rehashing = false) := by
  obtain ⟨j, h1, h2, h3, h4⟩ := h.search key (W.hash now key)
  simp only [removeKey, h1]
  rcases h4 with he | ⟨k, v, he, hk⟩
  · have e0 : remTry T j = (false, T) := by unfold remTry; rw [he]
    have e1 : isFound (T.tv.slots j) = false := by rw [he]; rfl
    simp only [e0, e1]
    rw [hs.needs hq (by omega)]
    exact hs.1
  · have e0 : remTry T j = (true, T.modify T.cur (remEntry j)) := by
      unfold remTry tryRem; rw [he, hs.1]; rfl
    rw [e0]
    show (T.modify T.cur (remEntry j)).tv.rehashing = false
    exact unmarked hs.1 fun _ => rfl

theorem removeKey_term (hW : W.Lawful) {t : Nat} (hq : W.Quiet t) (fuel : Nat) :
    ∀ {T : Tab K V} {now : Nat} {m : K → Option V}, TInv W T now m → T.tv.rehashing = false →
    t - now + 2 ≤ fuel → ∀ key,
    (removeKey W fuel now T key).Done (fun r => r.2.1.tv.rehashing = false) := by
  induction fuel with
  | zero => intro T now m _ _ hf; omega
  | succ fuel ih =>
    intro T now m h hr hf key
    obtain ⟨j, h1, h2, h3, h4⟩ := h.search key (W.hash now key)
    simp only [removeKey, h1]
    rcases h4 with he | ⟨k, v, he, hk⟩
    · have e0 : remTry T j = (false, T) := by unfold remTry; rw [he]
      have e1 : isFound (T.tv.slots j) = false := by rw [he]; rfl
      simp only [e0, e1]
      rw [if_neg (by simp)]
      by_cases hnr : needsRehash W (now + 1) T.tv = true
      · rw [if_pos hnr]
        refine (rehash_done hW (h.later (Nat.le_add_right now 2)) false).bind ?_
        rintro ⟨T', now'⟩ ⟨a1, a2, a3, a4, _⟩
        simp only at a1 a2 a3 a4
        by_cases ht : now < t
        · exact ih a1 a3 (by omega) key
        · obtain ⟨f, rfl⟩ : ∃ f, fuel = f + 1 := ⟨fuel - 1, by omega⟩
          exact removeKey_settled hq a1 ⟨a3, fun d hd => by have := a4 d hd; omega⟩ (by omega) f key
      · rw [if_neg hnr, if_neg (by decide)]
        exact hr
    · have e0 : remTry T j = (true, T.modify T.cur (remEntry j)) := by
        unfold remTry tryRem; rw [he, hr]; rfl
      rw [e0]
      show (T.modify T.cur (remEntry j)).tv.rehashing = false
      exact unmarked hr fun _ => rfl

/-! ### storing -/

/-- A store into a table that is not full and has no stale hash states succeeds. -/
theorem putTry_fails {T : Tab K V} {now : Nat} {j : Nat} {key : K} {v : V}
    (hr : T.tv.rehashing = false)
    (h4 : T.tv.slots j = .empty ∨ ∃ k v, T.tv.slots j = .full k v ∧ W.eq key k = true)
    (hb : (putTry W now T j key v).1 = false) :
    (putTry W now T j key v).2 = T.modify T.cur (addDep key now) ∧
      (isFull T.tv = true ∨ isStale W (now + 1) ((key, now) :: T.tv.deps) = true) := by
  unfold putTry at *
  rcases h4 with he | ⟨k, v0, he, hk⟩
  · rw [he] at hb ⊢
    simp only at hb ⊢
    unfold putNew at hb ⊢
    simp only at hb ⊢
    have htv : (T.modify T.cur (addDep key now)).tv = addDep key now T.tv := modify_tv _ _
    rw [htv] at hb ⊢
    have e1 : (addDep key now T.tv).rehashing = false := hr
    have e2 : isFull (addDep key now T.tv) = isFull T.tv := rfl
    have e3 : (addDep key now T.tv).deps = (key, now) :: T.tv.deps := rfl
    rw [e1, e2, e3] at hb ⊢
    split at hb
    · cases hb
    · rename_i hc
      rw [if_neg hc]
      refine ⟨rfl, ?_⟩
      by_cases hf : isFull T.tv = true
      · exact Or.inl hf
      · refine Or.inr ?_
        by_contra hst
        exact hc (by simp at hf hst; simp [hf, hst])
  · exfalso
    rw [he] at hb
    simp only at hb
    unfold putOld at hb
    rw [hr] at hb
    simp at hb

theorem putTry_rehashing {T : Tab K V} {now : Nat} {j : Nat} {key : K} {v : V}
    (hr : T.tv.rehashing = false) : (putTry W now T j key v).2.tv.rehashing = false := by
  have h1 : (T.modify T.cur (addDep key now)).tv.rehashing = false :=
    unmarked hr fun _ => rfl
  unfold putTry
  cases T.tv.slots j with
  | empty =>
    simp only
    unfold putNew
    simp only
    split
    · exact unmarked h1 fun _ => rfl
    · exact h1
  | deleted o => exact hr
  | full k v0 =>
    simp only
    unfold putOld
    split
    · exact unmarked hr fun _ => rfl
    · exact hr

theorem puthash_settled {t : Nat} (hq : W.Quiet t) {T : Tab K V} {now : Nat}
    {m : K → Option V} (h : TInv W T now m) (hs : Settled t T) (hf : isFull T.tv = false)
    (hn : t ≤ now) (fuel : Nat) (key : K) (v : V) :
    (puthash W (fuel + 1) now T key v).Done (fun r => r.1.tv.rehashing = false) := by
  obtain ⟨j, h1, h2, h3, h4⟩ := h.search key (W.hash now key)
  simp only [puthash, h1]
  by_cases hb : (putTry W now T j key v).1 = true
  · rw [if_pos hb]
    exact putTry_rehashing hs.1
  · exfalso
    obtain ⟨_, e⟩ := putTry_fails hs.1 h4 (Bool.eq_false_iff.2 hb)
    rcases e with e | e
    · rw [hf] at e; cases e
    · rw [quiet_stale hq (by omega)] at e
      · cases e
      · intro d hd
        rcases List.mem_cons.1 hd with rfl | hd
        · exact hn
        · exact hs.2 d hd

theorem moved_mono {now now' : Nat} (hn : now ≤ now') {k : K} {s : Nat}
    (h : moved W now k s = true) : moved W now' k s = true := by
  unfold moved at *
  rw [List.any_eq_true] at *
  obtain ⟨u, hu, h2⟩ := h
  exact ⟨u, by simp at hu ⊢; omega, h2⟩

theorem puthash_term (hW : W.Lawful) {t : Nat} (hq : W.Quiet t) (fuel : Nat) :
    ∀ {T : Tab K V} {now : Nat} {m : K → Option V}, TInv W T now m → T.tv.rehashing = false →
    t - now + 2 ≤ fuel → ∀ key v,
    (puthash W fuel now T key v).Done (fun r => r.1.tv.rehashing = false) := by
  induction fuel with
  | zero => intro T now m _ _ hf; omega
  | succ fuel ih =>
    intro T now m h hr hf key v
    obtain ⟨j, h1, h2, h3, h4⟩ := h.search key (W.hash now key)
    simp only [puthash, h1]
    by_cases hb : (putTry W now T j key v).1 = true
    · rw [if_pos hb]
      exact putTry_rehashing hr
    · rw [if_neg hb]
      obtain ⟨e1, e2⟩ := putTry_fails hr h4 (Bool.eq_false_iff.2 hb)
      rw [e1]
      have h5 : TInv W (T.modify T.cur (addDep key now)) (now + 2) m :=
        (h.modify (h.inv.addDep key) h.rep).later (Nat.le_succ (now + 1))
      have htv : (T.modify T.cur (addDep key now)).tv = addDep key now T.tv := modify_tv _ _
      have hr5 : (T.modify T.cur (addDep key now)).tv.rehashing = false :=
        unmarked hr fun _ => rfl
      have hf5 : isFull (T.modify T.cur (addDep key now)).tv = isFull T.tv := by rw [htv]; rfl
      have hd5 : (T.modify T.cur (addDep key now)).tv.deps = (key, now) :: T.tv.deps := by
        rw [htv]; rfl
      generalize T.modify T.cur (addDep key now) = T5 at *
      have key5 : (putRetry W (now + 2) T5).Done (fun r => TInv W r.1 r.2 m ∧ now + 1 ≤ r.2 ∧
          r.1.tv.rehashing = false ∧
          (t ≤ now → (∀ d ∈ r.1.tv.deps, now ≤ d.2) ∧ isFull r.1.tv = false)) := by
        have reh : ∀ g, (g = true ∨ isFull T5.tv = false) →
            (rehashTable W (now + 2 + 1) T5 g).Done (fun r => TInv W r.1 r.2 m ∧ now + 1 ≤ r.2 ∧
              r.1.tv.rehashing = false ∧
              (t ≤ now → (∀ d ∈ r.1.tv.deps, now ≤ d.2) ∧ isFull r.1.tv = false)) := by
          intro g hg
          have := rehash_done hW (h5.later (Nat.le_succ (now + 2))) g
          cases hrt : rehashTable W (now + 2 + 1) T5 g with
          | ok r =>
            rw [hrt] at this
            obtain ⟨a1, a2, a3, a4, a5⟩ := this
            exact ⟨a1, by omega, a3, fun _ => ⟨fun d hd => by have := a4 d hd; omega, a5 hg⟩⟩
          | tooLarge T' now' => trivial
          | diverge => trivial
          | running => rw [hrt] at this; exact this
        unfold putRetry
        by_cases hnr : needsRehash W (now + 2) T5.tv = true
        · rw [if_pos hnr]
          refine reh _ ?_
          cases isFull T5.tv with
          | true => exact Or.inl rfl
          | false => exact Or.inr rfl
        · rw [if_neg hnr]
          by_cases hfl : isFull T5.tv = true
          · rw [if_pos hfl]
            exact reh _ (Or.inl rfl)
          · rw [if_neg hfl]
            refine ⟨h5.later (Nat.le_succ (now + 2)), by omega, hr5, fun ht => ?_⟩
            exfalso
            rcases e2 with e2 | e2
            · rw [hf5] at hfl; exact hfl e2
            · refine hnr ?_
              unfold needsRehash
              rw [hd5, hr5, Bool.false_or]
              unfold isStale at e2 ⊢
              rw [(hq (now + 1) (by omega)).1, Bool.or_false] at e2
              rw [(hq (now + 2) (by omega)).1, Bool.or_false]
              rw [List.any_eq_true] at e2 ⊢
              obtain ⟨d, hd, hm⟩ := e2
              exact ⟨d, hd, moved_mono (by omega) hm⟩
      refine key5.bind ?_
      rintro ⟨T', now'⟩ ⟨a1, a2, a3, a4⟩
      simp only at a1 a2 a3 a4
      by_cases ht : now < t
      · exact ih a1 a3 (by omega) key v
      · obtain ⟨b1, b2⟩ := a4 (by omega)
        obtain ⟨f, rfl⟩ : ∃ f, fuel = f + 1 := ⟨fuel - 1, by omega⟩
        exact puthash_settled hq a1 ⟨a3, fun d hd => by have := b1 d hd; omega⟩ b2 (by omega) f key v

/-! ### iteration -/

theorem nextState_rehashing (T : Tab K V) (it : Iter K) :
    (nextState T it).1.tv.rehashing = T.tv.rehashing := by
  unfold nextState
  split
  · rfl
  · split
    · rfl
    · exact modify_rehashing fun _ => rfl

theorem initialState_term (hW : W.Lawful) {t : Nat} (hq : W.Quiet t) (fuel : Nat) :
    ∀ {T : Tab K V} {now : Nat} {m : K → Option V}, TInv W T now m → T.tv.rehashing = false →
    t - now + 2 ≤ fuel →
    (initialState W fuel now T).Done (fun r => r.2.1.tv.rehashing = false) := by
  have last : ∀ {T : Tab K V}, T.tv.rehashing = false →
      (nextState (T.modify T.cur incRefs)
        { source := T.cur, token := T.tv.token, index := some T.tv.count, key := none }).1.tv.rehashing
        = false := by
    intro T hr
    rw [nextState_rehashing]
    exact unmarked hr fun _ => rfl
  induction fuel with
  | zero => intro T now m _ _ hf; omega
  | succ fuel ih =>
    intro T now m h hr hf
    simp only [initialState]
    by_cases hnr : needsRehash W now T.tv = true
    · rw [if_pos hnr]
      refine (rehash_done hW (h.later (Nat.le_add_right now 1)) false).bind ?_
      rintro ⟨T', now'⟩ ⟨a1, a2, a3, a4, _⟩
      simp only at a1 a2 a3 a4
      by_cases ht : now < t
      · exact ih a1 a3 (by omega)
      · obtain ⟨f, rfl⟩ : ∃ f, fuel = f + 1 := ⟨fuel - 1, by omega⟩
        have hs : Settled t T' := ⟨a3, fun d hd => by have := a4 d hd; omega⟩
        simp only [initialState]
        rw [hs.needs hq (by omega)]
        exact last a3
    · rw [if_neg hnr]
      exact last hr

/-! ### histories -/

/-- The step ends, and leaves a table that is not marked unless there has been an error. -/
def StepEnds (r : Out K V (Obs K V × St K V)) : Prop :=
  match r with
  | .ok (o, s') => o = .tooLarge ∨ s'.T.tv.rehashing = false
  | .diverge => True
  | .running => False

theorem Res.Done.out {α : Type} {r : Res K V α} {P : α → Prop} (h : r.Done P) {s : St K V}
    {f : α → Obs K V × St K V} (hp : ∀ a, P a → (f a).2.T.tv.rehashing = false) :
    StepEnds (r.out s f) := by
  cases r with
  | ok a => exact Or.inr (hp a h)
  | tooLarge T now => exact Or.inl rfl
  | diverge => trivial
  | running => exact h

theorem step_ends (hW : W.Lawful) {t : Nat} (hq : W.Quiet t) {fuel : Nat} (hf : t + 2 ≤ fuel)
    {s : St K V} {sp : SpecSt K V} (h : SInv W s sp) (hr : s.T.tv.rehashing = false)
    (op : Op K V) : StepEnds (step W fuel s op) := by
  have hfu : t - s.now + 2 ≤ fuel := by omega
  cases op with
  | get k => exact (gethash_term hW hq fuel h.tinv hr hfu k).out fun _ x => x
  | put k v => exact (puthash_term hW hq fuel h.tinv hr hfu k v).out fun _ x => x
  | remove k => exact (removeKey_term hW hq fuel h.tinv hr hfu k).out fun _ x => x
  | clear =>
    refine Res.Done.out (P := fun T => T.tv.rehashing = false) ?_ fun _ x => x
    unfold removeAll
    split
    · exact hr
    · split
      · simp only [Res.Done]; rw [modify_tv]; rfl
      · split
        · trivial
        · simp only [Res.Done]; rw [push_tv]; rfl
  | size => exact Or.inr hr
  | iterStart => exact (initialState_term hW hq fuel h.tinv hr hfu).out fun _ x => x
  | iterNext n =>
    simp only [step]
    split
    · exact Or.inr hr
    · exact Or.inr ((nextState_rehashing _ _).trans hr)
  | iterCopy n =>
    simp only [step]
    split
    · exact Or.inr hr
    · exact Or.inr (unmarked (f := incRefs) hr fun _ => rfl)
  | iterElem n =>
    simp only [step]
    cases hit : s.its[n]? with
    | none => exact Or.inr hr
    | some it =>
      refine Res.Done.out (P := fun r => r.2.1.tv.rehashing = false) ?_ fun _ x => x
      have look : ∀ k v, ((gethash W fuel s.now s.T k).bind fun r =>
          (.ok (some (r.1.getD v), r.2) : Res K V (Option V × Tab K V × Nat))).Done
          (fun r => r.2.1.tv.rehashing = false) := fun k v =>
        (gethash_term hW hq fuel h.tinv hr hfu k).bind fun _ x => x
      unfold currentElement
      split
      · split
        · split
          · exact hr
          · exact look _ _
        · exact look _ _
        · exact hr
      · exact hr
  | iterSet n v =>
    simp only [step]
    cases hit : s.its[n]? with
    | none => exact Or.inr hr
    | some it =>
      refine Res.Done.out (P := fun r => r.2.1.tv.rehashing = false) ?_ fun _ x => x
      obtain ⟨c, hc, hrel⟩ := forall2_get h.curs hit
      cases c with
      | none =>
        have hi : it.index = none := hrel
        unfold setCurrentElement
        rw [hi]
        exact hr
      | some c =>
        obtain ⟨k, b⟩ := c
        obtain ⟨i, m', g1, g2, g3, g4, g5, g6⟩ :=
          storeValue_sat hW h.tinv hrel v (fun _ => false)
        have hr' : (s.T.modify it.source (storeValue i v)).tv.rehashing = false :=
          unmarked hr fun _ => rfl
        unfold setCurrentElement
        simp only [g1, g2]
        split
        · exact (puthash_term hW hq fuel g4 hr' hfu k v).bind fun _ x => x
        · exact hr'

/-- A history that does not end has had an error. -/
theorem run_ends (hW : W.Lawful) {t : Nat} (hq : W.Quiet t) {fuel : Nat} (hf : t + 2 ≤ fuel)
    (ops : List (Op K V)) : ∀ {s : St K V} {sp : SpecSt K V}, SInv W s sp →
    s.T.tv.rehashing = false → run W fuel s ops = .running →
    ∃ pre suf os s', ops = pre ++ suf ∧ run W fuel s pre = .ok (os, s') ∧
      (Obs.tooLarge : Obs K V) ∈ os := by
  induction ops with
  | nil => intro s sp _ _ hrun; cases hrun
  | cons op ops ih =>
    intro s sp h hr hrun
    have hs := step_ok hW fuel h op
    have he := step_ends hW hq hf h hr op
    simp only [run] at hrun
    cases hst : step W fuel s op with
    | diverge => rw [hst] at hs; exact hs.elim
    | running => rw [hst] at he; exact he.elim
    | ok r =>
      obtain ⟨o, s1⟩ := r
      rw [hst] at hs he hrun
      obtain ⟨sp1, a1, a2, _⟩ := hs
      rcases he with he | he
      · refine ⟨[op], ops, [o], s1, rfl, ?_, by rw [he]; simp⟩
        simp [run, hst]
      · simp only at hrun
        cases hrun' : run W fuel s1 ops with
        | ok r => rw [hrun'] at hrun; cases hrun
        | diverge => rw [hrun'] at hrun; cases hrun
        | running =>
          obtain ⟨pre, suf, os, s', b1, b2, b3⟩ := ih a2 he hrun'
          refine ⟨op :: pre, suf, o :: os, s', by rw [b1]; rfl, ?_, List.mem_cons_of_mem _ b3⟩
          simp [run, hst, b2]

end Verif.Table
