import Verif.Table.Rehash

/-! # Helper lemmas for hash tables: the operations -/

namespace Verif.Table

variable {K V : Type} {W : World K}

/-- The invariant of a table that represents the map `m`. -/
structure TInv (W : World K) (T : Tab K V) (now : Nat) (m : K → Option V) : Prop where
  inv : Inv W T.tv now
  rep : Rep W T.tv m
  old : ∀ j, j < T.cur → (T.vecs j).rehashing = true
  uniqs : ∀ j, j ≤ T.cur → Uniq W (T.vecs j).slots (T.vecs j).count
  init : computeEntryCount T.initial ≠ none

/-- What an operation may do to the table vectors that iterations refer to.  `ro`: it does not
    change their entries; `rm`: the keys it may remove. -/
structure Evolve (ro : Prop) (rm : K → Bool) (T T' : Tab K V) : Prop where
  cur : T.cur ≤ T'.cur
  refs : ∀ j, j ≤ T.cur → (T'.vecs j).refs = (T.vecs j).refs
  same : ∀ j, j ≤ T.cur → (T.vecs j).refs ≠ 0 →
    (T'.vecs j).count = (T.vecs j).count ∧ (T'.vecs j).token = (T.vecs j).token ∧
    (ro → (T'.vecs j).slots = (T.vecs j).slots)
  full : ∀ j, j ≤ T.cur → (T.vecs j).refs ≠ 0 → ∀ i k v, (T.vecs j).slots i = .full k v →
    (∃ v', (T'.vecs j).slots i = .full k v') ∨
      (rm k = true ∧ ∃ o, (T'.vecs j).slots i = .deleted o)
  deleted : ∀ j, j ≤ T.cur → (T.vecs j).refs ≠ 0 → ∀ i o, (T.vecs j).slots i = .deleted o →
    ∃ o', (T'.vecs j).slots i = .deleted o'

theorem Evolve.refl {ro : Prop} {rm : K → Bool} (T : Tab K V) : Evolve ro rm T T :=
  ⟨Nat.le_refl _, fun _ _ => rfl, fun _ _ _ => ⟨rfl, rfl, fun _ => rfl⟩,
    fun _ _ _ _ _ v h => Or.inl ⟨v, h⟩, fun _ _ _ _ o h => ⟨o, h⟩⟩

theorem Evolve.trans {ro : Prop} {rm : K → Bool} {T T' T'' : Tab K V} (h : Evolve ro rm T T')
    (h' : Evolve ro rm T' T'') : Evolve ro rm T T'' := by
  have hc := h.cur
  have hr : ∀ j, j ≤ T.cur → (T.vecs j).refs ≠ 0 → (T'.vecs j).refs ≠ 0 := by
    intro j hj hne; rw [h.refs j hj]; exact hne
  refine ⟨Nat.le_trans h.cur h'.cur, ?_, ?_, ?_, ?_⟩
  · intro j hj
    rw [h'.refs j (by omega), h.refs j hj]
  · intro j hj hne
    obtain ⟨a1, a2, a3⟩ := h.same j hj hne
    obtain ⟨b1, b2, b3⟩ := h'.same j (by omega) (hr j hj hne)
    exact ⟨b1.trans a1, b2.trans a2, fun x => (b3 x).trans (a3 x)⟩
  · intro j hj hne i k v e
    rcases h.full j hj hne i k v e with ⟨v', e'⟩ | ⟨hk, o, e'⟩
    · exact h'.full j (by omega) (hr j hj hne) i k v' e'
    · exact Or.inr ⟨hk, h'.deleted j (by omega) (hr j hj hne) i o e'⟩
  · intro j hj hne i o e
    obtain ⟨o', e'⟩ := h.deleted j hj hne i o e
    exact h'.deleted j (by omega) (hr j hj hne) i o' e'

theorem Evolve.weaken {ro ro' : Prop} {rm rm' : K → Bool} {T T' : Tab K V}
    (h : Evolve ro rm T T') (h1 : ro' → ro) (h2 : ∀ k, rm k = true → rm' k = true) :
    Evolve ro' rm' T T' := by
  refine ⟨h.cur, h.refs, ?_, ?_, h.deleted⟩
  · intro j hj hne
    obtain ⟨a1, a2, a3⟩ := h.same j hj hne
    exact ⟨a1, a2, fun x => a3 (h1 x)⟩
  · intro j hj hne i k v e
    rcases h.full j hj hne i k v e with a | ⟨a, b⟩
    · exact Or.inl a
    · exact Or.inr ⟨h2 k a, b⟩

/-- The outcome satisfies the conditions, and no search ran forever. -/
def Res.Sat {α : Type} (r : Res K V α) (P : α → Prop) (Q : Tab K V → Nat → Prop) : Prop :=
  match r with
  | .ok a => P a
  | .tooLarge T now => Q T now
  | .diverge => False
  | .running => True

theorem Res.Sat.bind {α β : Type} {r : Res K V α} {f : α → Res K V β} {P : α → Prop}
    {P' : β → Prop} {Q Q' : Tab K V → Nat → Prop} (h : r.Sat P Q)
    (hf : ∀ a, P a → (f a).Sat P' Q') (hq : ∀ T now, Q T now → Q' T now) : (r.bind f).Sat P' Q' := by
  cases r with
  | ok a => exact hf a h
  | tooLarge T now => exact hq T now h
  | diverge => exact h
  | running => trivial

theorem Res.Sat.mono {α : Type} {r : Res K V α} {P P' : α → Prop}
    {Q Q' : Tab K V → Nat → Prop} (h : r.Sat P Q)
    (hf : ∀ a, P a → P' a) (hq : ∀ T now, Q T now → Q' T now) : r.Sat P' Q' := by
  cases r with
  | ok a => exact hf a h
  | tooLarge T now => exact hq T now h
  | diverge => exact h
  | running => trivial

theorem Inv.later {tv : TV K V} {now now' : Nat} (h : Inv W tv now) (hn : now ≤ now') :
    Inv W tv now' :=
  { h with time := fun d hd => Nat.lt_of_lt_of_le (h.time d hd) hn }

theorem TInv.later {T : Tab K V} {now now' : Nat} {m : K → Option V} (h : TInv W T now m)
    (hn : now ≤ now') : TInv W T now' m :=
  { h with inv := h.inv.later hn }

theorem modify_tv (T : Tab K V) (f : TV K V → TV K V) : (T.modify T.cur f).tv = f T.tv := by
  simp [Tab.modify, Tab.tv]

theorem modify_other (T : Tab K V) (f : TV K V → TV K V) {n j : Nat} (h : j ≠ n) :
    (T.modify n f).vecs j = T.vecs j := by
  simp [Tab.modify, h]

theorem modify_self (T : Tab K V) (f : TV K V → TV K V) (n : Nat) :
    (T.modify n f).vecs n = f (T.vecs n) := by
  simp [Tab.modify]

theorem push_tv (T : Tab K V) (tv : TV K V) : (T.push tv).tv = tv := by
  simp [Tab.push, Tab.tv]

theorem push_old (T : Tab K V) (tv : TV K V) {j : Nat} (h : j ≤ T.cur) :
    (T.push tv).vecs j = T.vecs j := by
  have : j ≠ T.cur + 1 := by omega
  simp [Tab.push, this]

/-- Changing the current table vector preserves the invariant of the table. -/
theorem TInv.modify {T : Tab K V} {now now' : Nat} {m m' : K → Option V} {f : TV K V → TV K V}
    (h : TInv W T now m) (hi : Inv W (f T.tv) now') (hr : Rep W (f T.tv) m') :
    TInv W (T.modify T.cur f) now' m' := by
  refine ⟨by rw [modify_tv]; exact hi, by rw [modify_tv]; exact hr, ?_, ?_, h.init⟩
  · intro j hj
    rw [modify_other _ _ (show j ≠ T.cur from Nat.ne_of_lt hj)]
    exact h.old j hj
  · intro j hj
    by_cases e : j = T.cur
    · subst e
      rw [modify_self]
      exact hi.uniq
    · rw [modify_other _ _ e]
      exact h.uniqs j hj

theorem Evolve.modify {ro : Prop} {rm : K → Bool} {T : Tab K V} {n : Nat} {f : TV K V → TV K V}
    (hr : (f (T.vecs n)).refs = (T.vecs n).refs)
    (hs : (T.vecs n).refs ≠ 0 → (f (T.vecs n)).count = (T.vecs n).count ∧
      (f (T.vecs n)).token = (T.vecs n).token ∧ (ro → (f (T.vecs n)).slots = (T.vecs n).slots))
    (hf : (T.vecs n).refs ≠ 0 → ∀ i k v, (T.vecs n).slots i = .full k v →
      (∃ v', (f (T.vecs n)).slots i = .full k v') ∨
        (rm k = true ∧ ∃ o, (f (T.vecs n)).slots i = .deleted o))
    (hd : (T.vecs n).refs ≠ 0 → ∀ i o, (T.vecs n).slots i = .deleted o →
      ∃ o', (f (T.vecs n)).slots i = .deleted o') : Evolve ro rm T (T.modify n f) := by
  refine ⟨Nat.le_refl _, ?_, ?_, ?_, ?_⟩ <;> intro j hj <;> by_cases e : j = n
  · subst e; rw [modify_self]; exact hr
  · rw [modify_other _ _ e]
  · subst e; rw [modify_self]; exact hs
  · rw [modify_other _ _ e]; exact fun _ => ⟨rfl, rfl, fun _ => rfl⟩
  · subst e; rw [modify_self]; exact hf
  · rw [modify_other _ _ e]; exact fun _ _ _ v h => Or.inl ⟨v, h⟩
  · subst e; rw [modify_self]; exact hd
  · rw [modify_other _ _ e]; exact fun _ _ o h => ⟨o, h⟩

theorem mark_inv {tv : TV K V} {now : Nat} (h : Inv W tv now) : Inv W (mark tv) now :=
  ⟨h.good, h.adds, h.dels, h.lim, h.uniq, h.placed, h.time⟩

theorem TInv.mark {T : Tab K V} {now : Nat} {m : K → Option V} (h : TInv W T now m) :
    TInv W (T.modify T.cur mark) now m :=
  h.modify (mark_inv h.inv) h.rep

theorem Evolve.mark {ro : Prop} {rm : K → Bool} (T : Tab K V) (n : Nat) :
    Evolve ro rm T (T.modify n mark) :=
  Evolve.modify rfl (fun _ => ⟨rfl, rfl, fun _ => rfl⟩) (fun _ _ _ v h => Or.inl ⟨v, h⟩)
    (fun _ _ o h => ⟨o, h⟩)

/-- Replacing the current table vector preserves the invariant of the table. -/
theorem TInv.replace {T : Tab K V} {now now' : Nat} {m m' : K → Option V} {tv : TV K V}
    (h : TInv W T now m) (hi : Inv W tv now') (hr : Rep W tv m') :
    TInv W ((T.modify T.cur Verif.Table.mark).push tv) now' m' := by
  have hm := h.mark
  refine ⟨by rw [push_tv]; exact hi, by rw [push_tv]; exact hr, ?_, ?_, h.init⟩
  · intro j hj
    have hj' : j ≤ T.cur := Nat.lt_succ_iff.1 hj
    rw [push_old (T.modify T.cur Verif.Table.mark) tv hj']
    by_cases e : j = T.cur
    · subst e; rw [modify_self]; rfl
    · rw [modify_other _ _ e]; exact h.old j (by omega)
  · intro j hj
    by_cases e : j = T.cur + 1
    · subst e
      have : ((T.modify T.cur Verif.Table.mark).push tv).vecs (T.cur + 1) = tv := by
        simp [Tab.push, Tab.modify]
      rw [this]
      exact hi.uniq
    · have hj' : j ≤ T.cur := by
        have : j ≤ T.cur + 1 := hj
        omega
      rw [push_old (T.modify T.cur Verif.Table.mark) tv hj']
      exact hm.uniqs j hj'

theorem Evolve.push {ro : Prop} {rm : K → Bool} (T : Tab K V) (tv : TV K V) :
    Evolve ro rm T (T.push tv) := by
  refine ⟨Nat.le_succ _, ?_, ?_, ?_, ?_⟩ <;> intro j hj <;> rw [push_old _ _ hj]
  · exact fun _ => ⟨rfl, rfl, fun _ => rfl⟩
  · exact fun _ _ _ v h => Or.inl ⟨v, h⟩
  · exact fun _ _ o h => ⟨o, h⟩

theorem Evolve.replace {ro : Prop} {rm : K → Bool} (T : Tab K V) (tv : TV K V) :
    Evolve ro rm T ((T.modify T.cur Verif.Table.mark).push tv) :=
  (Evolve.mark T T.cur).trans (Evolve.push _ tv)

theorem Rep.congr {tv tv' : TV K V} {m : K → Option V} (h : Rep W tv m)
    (he : ∀ k v, Has tv'.slots tv'.count k v ↔ Has tv.slots tv.count k v) : Rep W tv' m := by
  intro k v
  rw [h k v]
  constructor
  · rintro ⟨k', a, b⟩; exact ⟨k', (he k' v).2 a, b⟩
  · rintro ⟨k', a, b⟩; exact ⟨k', (he k' v).1 a, b⟩

/-- Rehashing keeps the map. -/
theorem rehashTable_sat (hW : W.Lawful) {T : Tab K V} {now : Nat} {m : K → Option V}
    (h : TInv W T now m) (grow : Bool) (rm : K → Bool) :
    (rehashTable W now T grow).Sat
      (fun r => TInv W r.1 r.2 m ∧ Evolve True rm T r.1 ∧ now ≤ r.2 ∧ r.1.tv.rehashing = false ∧
        (∀ d ∈ r.1.tv.deps, now ≤ d.2) ∧
        (grow = true ∨ isFull T.tv = false → isFull r.1.tv = false) ∧
        r.1.tv.deletions = 0)
      (fun T' now' => TInv W T' now' m ∧ Evolve True rm T T' ∧ now' = now) := by
  have hi := h.inv
  unfold rehashTable
  by_cases hg : (!grow && decide (T.tv.refs = 0)) = true
  · rw [if_pos hg]
    have hrefs : T.tv.refs = 0 := by
      simp at hg; exact hg.2
    have hgf : grow = false := by simp at hg; exact hg.1
    obtain ⟨w, e, h1, h2, h3, h4, h5⟩ := rehashInPlace_spec hW hi
    unfold rehashInPlace
    rw [e]
    simp only [Res.Sat]
    refine ⟨h.modify (h5 _ _) (h.rep.congr h4), ?_, h1, ?_, ?_, ?_, ?_⟩
    · refine Evolve.modify rfl ?_ ?_ ?_ <;> intro hne <;> exact absurd hrefs hne
    · rw [modify_tv]
    · rw [modify_tv]; exact h3
    · rw [hgf]
      rintro (x | x)
      · cases x
      · rw [modify_tv]
        simp [isFull] at x ⊢
        omega
    · rw [modify_tv]
  · rw [if_neg hg]
    cases hc : computeEntryCount (rehashEntryCount T grow) with
    | none => exact ⟨h.mark, Evolve.mark T T.cur, rfl⟩
    | some c =>
      obtain ⟨hgood, hlt⟩ := computeEntryCount_spec hc
      have hp : (T.tv.additions : Int) - T.tv.deletions ≤ rehashEntryCount T grow := by
        unfold rehashEntryCount
        simp only
        split <;> omega
      obtain ⟨w, e, h1, h2, h3, h4, h5⟩ := rehashIntoCopy_spec hW hi hgood (by omega)
      simp only
      unfold rehashIntoCopy
      rw [e]
      simp only [Res.Sat]
      refine ⟨h.replace (h5 _ _) (h.rep.congr h4), Evolve.replace _ _, h1, ?_, ?_, ?_, ?_⟩
      · rw [push_tv]; rfl
      · rw [push_tv]; exact h3
      · intro _
        rw [push_tv]
        unfold isFull
        simp only [mkTV]
        have : w.cnt < limitOf c := by omega
        simp
        omega
      · rw [push_tv]; rfl

/-! ### lookup -/

theorem TInv.search {T : Tab K V} {now : Nat} {m : K → Option V} (h : TInv W T now m) (key : K) (id : Int) :
    ∃ j, Verif.Table.search W T.tv.count T.tv.slots key id = some j ∧ j < T.tv.count ∧
      Placed T.tv.slots T.tv.count id j ∧
      (T.tv.slots j = .empty ∨ ∃ k v, T.tv.slots j = .full k v ∧ W.eq key k = true) :=
  search_ok h.inv.good key id h.inv.emptySlot

theorem TInv.found {T : Tab K V} {now : Nat} {m : K → Option V} (h : TInv W T now m) {j : Nat}
    {key k : K} {v : V} (hj : j < T.tv.count) (hs : T.tv.slots j = .full k v)
    (hk : W.eq key k = true) : m key = some v :=
  (h.rep key v).2 ⟨k, ⟨j, hj, hs⟩, hk⟩

theorem TInv.missing (hW : W.Lawful) {T : Tab K V} {now now' : Nat} {m : K → Option V}
    (h : TInv W T now m) {j : Nat} {key : K}
    (hs : Verif.Table.search W T.tv.count T.tv.slots key (W.hash now key) = some j)
    (he : T.tv.slots j = .empty) (hst : isStale W now' T.tv.deps = false) (hn : now ≤ now') :
    m key = none := by
  cases hm : m key with
  | none => rfl
  | some v =>
    obtain ⟨k, ⟨i, hi, e⟩, hk⟩ := (h.rep key v).1 hm
    rw [h.inv.absent hW hs he hst hn i k v hi e] at hk
    cases hk

theorem gethash_sat (hW : W.Lawful) (fuel : Nat) : ∀ {T : Tab K V} {now : Nat} {m : K → Option V}
    (_ : TInv W T now m) (key : K) (rm : K → Bool),
    (gethash W fuel now T key).Sat
      (fun r => r.1 = m key ∧ TInv W r.2.1 r.2.2 m ∧ Evolve True rm T r.2.1 ∧ now ≤ r.2.2)
      (fun T' now' => TInv W T' now' m ∧ Evolve True rm T T' ∧ now ≤ now') := by
  induction fuel with
  | zero => intros; trivial
  | succ fuel ih =>
    intro T now m h key rm
    obtain ⟨j, h1, h2, h3, h4⟩ := h.search key (W.hash now key)
    simp only [gethash, h1]
    rcases h4 with he | ⟨k, v, he, hk⟩
    · rw [he]
      simp only
      by_cases hr : needsRehash W (now + 1) T.tv = true
      · rw [if_pos hr]
        refine (rehashTable_sat hW (h.later (by omega : now ≤ now + 2)) false rm).bind ?_ ?_
        · rintro ⟨T', now'⟩ ⟨a1, a2, a3, _⟩
          refine (ih a1 key rm).mono ?_ ?_
          · rintro ⟨o, T'', now''⟩ ⟨b1, b2, b3, b4⟩
            exact ⟨b1, b2, a2.trans b3, Nat.le_trans (Nat.le_trans (Nat.le_add_right now 2) a3) b4⟩
          · rintro T'' now'' ⟨b2, b3, b4⟩
            exact ⟨b2, a2.trans b3, Nat.le_trans (Nat.le_trans (Nat.le_add_right now 2) a3) b4⟩
        · rintro T' now' ⟨a1, a2, a3⟩
          exact ⟨a1, a2, by omega⟩
      · rw [if_neg hr]
        have hst : isStale W (now + 1) T.tv.deps = false := by
          simp [needsRehash] at hr; simpa using hr.2
        exact ⟨(h.missing hW h1 he hst (by omega)).symm, h.later (Nat.le_add_right now 2), Evolve.refl T,
          Nat.le_add_right now 2⟩
    · rw [he]
      simp only
      by_cases hr : T.tv.rehashing = true
      · rw [if_pos hr]
        refine (ih (h.later (by omega : now ≤ now + 1)) key rm).mono ?_ ?_
        · rintro ⟨o, T'', now''⟩ ⟨b1, b2, b3, b4⟩
          exact ⟨b1, b2, b3, Nat.le_trans (Nat.le_add_right now 1) b4⟩
        · rintro T'' now'' ⟨b2, b3, b4⟩
          exact ⟨b2, b3, Nat.le_trans (Nat.le_add_right now 1) b4⟩
      · rw [if_neg hr]
        exact ⟨(h.found h2 he hk).symm, h.later (Nat.le_add_right now 1), Evolve.refl T,
          Nat.le_add_right now 1⟩

/-! ### storing -/

theorem Placed.update {slots : Nat → Slot K V} {c : Nat} {id : Int} {i j : Nat} {x : Slot K V}
    (h : Placed slots c id i) (hx : isFound x = true) :
    Placed (Function.update slots j x) c id i :=
  Reach.mono h fun _ ha => isFound_update hx ha

/-- Storing under a new key. -/
theorem Inv.add (hW : W.Lawful) {tv : TV K V} {now : Nat} (h : Inv W tv now) {j : Nat} {key : K} {v : V} {s : Nat}
    (hj : j < tv.count) (he : tv.slots j = .empty) (hf : isFull tv = false)
    (hd : (key, s) ∈ tv.deps) (hp : Placed tv.slots tv.count (W.hash s key) j)
    (hab : ∀ i k v, i < tv.count → tv.slots i = .full k v → W.eq key k = false) :
    Inv W (addEntry j key v tv) now := by
  have hlim : tv.additions < limitOf tv.count := by
    unfold isFull at hf; simpa using hf
  have e0 : isFound (Slot.empty : Slot K V) = false := rfl
  have e1 : isFound (Slot.full key v) = true := rfl
  have e2 : isDeleted (Slot.empty : Slot K V) = false := rfl
  have e3 : isDeleted (Slot.full key v) = false := rfl
  refine ⟨h.good, ?_, ?_, hlim, ?_, ?_, h.time⟩
  · have := upd_cnt isFound (slots := tv.slots) hj (.full key v)
    rw [he, e0, e1, if_pos rfl, if_neg (by decide)] at this
    have := h.adds
    simp only [Verif.Table.addEntry]
    omega
  · have := upd_cnt isDeleted (slots := tv.slots) hj (.full key v)
    rw [he, e2, e3, if_neg (by decide)] at this
    have := h.dels
    simp only [Verif.Table.addEntry]
    omega
  · exact upd_uniq hW h.uniq fun i k v' hi _ e => hab i k v' hi e
  · intro i k v' hi e
    simp only [Verif.Table.addEntry] at hi e ⊢
    by_cases hij : i = j
    · subst hij
      rw [Function.update_self] at e
      cases e
      exact ⟨s, hd, hp.update rfl⟩
    · rw [Function.update_of_ne hij] at e
      obtain ⟨s', a, b⟩ := h.placed i k v' hi e
      exact ⟨s', a, b.update rfl⟩

theorem Rep.add (hW : W.Lawful) {tv : TV K V} {m : K → Option V} (h : Rep W tv m) {j : Nat} {key : K} {v : V}
    (hj : j < tv.count) (he : tv.slots j = .empty)
    (hab : ∀ i k v, i < tv.count → tv.slots i = .full k v → W.eq key k = false) :
    Rep W (addEntry j key v tv) (mapPut W.eq m key v) := by
  intro k v'
  simp only [Verif.Table.addEntry]
  have hup := upd_has (slots := tv.slots) hj (k0 := key) (v0 := v) (by rw [he]; rfl)
  unfold mapPut
  by_cases hk : W.eq k key = true
  · rw [if_pos hk]
    constructor
    · intro e; cases e
      exact ⟨key, (hup key v).2 (Or.inr ⟨rfl, rfl⟩), hk⟩
    · rintro ⟨k', a, b⟩
      rcases (hup k' v').1 a with ⟨i, hi, e⟩ | ⟨_, e⟩
      · have := hab i k' v' hi e
        rw [hW.trans _ _ _ (hW.symm _ _ hk) b] at this
        cases this
      · rw [e]
  · rw [if_neg hk, h k v']
    constructor
    · rintro ⟨k', a, b⟩
      exact ⟨k', (hup k' v').2 (Or.inl a), b⟩
    · rintro ⟨k', a, b⟩
      rcases (hup k' v').1 a with a | ⟨e, _⟩
      · exact ⟨k', a, b⟩
      · subst e; exact absurd b hk

/-- Replacing the value of an entry. -/
theorem Inv.set (hW : W.Lawful) {tv : TV K V} {now : Nat} (h : Inv W tv now) {j : Nat} {k : K} {v0 v : V}
    (hj : j < tv.count) (he : tv.slots j = .full k v0) :
    Inv W (setEntry j k v tv) now := by
  refine ⟨h.good, ?_, ?_, h.lim, ?_, ?_, h.time⟩
  · have := upd_cnt isFound (slots := tv.slots) hj (.full k v)
    have e1 : isFound (Slot.full k v0) = isFound (Slot.full k v) := rfl
    rw [he, e1] at this
    have := h.adds
    simp only [Verif.Table.setEntry]
    omega
  · have := upd_cnt isDeleted (slots := tv.slots) hj (.full k v)
    have e1 : isDeleted (Slot.full k v0) = isDeleted (Slot.full k v) := rfl
    rw [he, e1] at this
    have := h.dels
    simp only [Verif.Table.setEntry]
    omega
  · refine upd_uniq hW h.uniq fun i k' v' hi hij e => ?_
    cases hq : W.eq k k' with
    | false => rfl
    | true => exact absurd (h.uniq j i k v0 k' v' hj hi he e hq) (fun e => hij e.symm)
  · intro i k' v' hi e
    simp only [Verif.Table.setEntry] at hi e ⊢
    by_cases hij : i = j
    · subst hij
      rw [Function.update_self] at e
      cases e
      obtain ⟨s', a, b⟩ := h.placed i k v0 hi he
      exact ⟨s', a, b.update rfl⟩
    · rw [Function.update_of_ne hij] at e
      obtain ⟨s', a, b⟩ := h.placed i k' v' hi e
      exact ⟨s', a, b.update rfl⟩

theorem Rep.set (hW : W.Lawful) {tv : TV K V} {m : K → Option V} (h : Rep W tv m) {j : Nat}
    {key k : K} {v0 v : V} (hu : Uniq W tv.slots tv.count) (hj : j < tv.count)
    (he : tv.slots j = .full k v0) (hk : W.eq key k = true) :
    Rep W (setEntry j k v tv) (mapPut W.eq m key v) := by
  intro k1 v1
  unfold mapPut
  simp only [Verif.Table.setEntry]
  by_cases hq : W.eq k1 key = true
  · rw [if_pos hq]
    constructor
    · intro e; cases e
      exact ⟨k, ⟨j, hj, Function.update_self ..⟩, hW.trans _ _ _ hq hk⟩
    · rintro ⟨k', ⟨i, hi, e⟩, b⟩
      by_cases hij : i = j
      · rw [hij, Function.update_self] at e
        cases e; rfl
      · rw [Function.update_of_ne hij] at e
        exact absurd (hu i j k' v1 k v0 hi hj e he
          (hW.trans _ _ _ (hW.symm _ _ b) (hW.trans _ _ _ hq hk))) hij
  · rw [if_neg hq, h k1 v1]
    constructor
    · rintro ⟨k', ⟨i, hi, e⟩, b⟩
      have hij : i ≠ j := by
        rintro rfl
        rw [he] at e
        cases e
        exact hq (hW.trans _ _ _ b (hW.symm _ _ hk))
      exact ⟨k', ⟨i, hi, by rw [Function.update_of_ne hij]; exact e⟩, b⟩
    · rintro ⟨k', ⟨i, hi, e⟩, b⟩
      by_cases hij : i = j
      · rw [hij, Function.update_self] at e
        cases e
        exact absurd (hW.trans _ _ _ b (hW.symm _ _ hk)) hq
      · rw [Function.update_of_ne hij] at e
        exact ⟨k', ⟨i, hi, e⟩, b⟩

theorem Inv.addDep {tv : TV K V} {now : Nat} (h : Inv W tv now) (key : K) :
    Inv W (addDep key now tv) (now + 1) := by
  refine ⟨h.good, h.adds, h.dels, h.lim, h.uniq, ?_, ?_⟩
  · intro i k v hi e
    obtain ⟨s, a, b⟩ := h.placed i k v hi e
    exact ⟨s, List.mem_cons_of_mem _ a, b⟩
  · intro d hd
    rcases List.mem_cons.1 hd with e | e
    · subst e; exact Nat.lt_succ_self _
    · exact Nat.lt_succ_of_lt (h.time d e)

theorem stale_cons {now : Nat} {d : K × Nat} {deps : List (K × Nat)}
    (h : isStale W now (d :: deps) = false) : isStale W now deps = false := by
  unfold isStale at *
  simp only [List.any_cons, Bool.or_eq_false_iff] at *
  exact ⟨h.1.2, h.2⟩

theorem Evolve.addDep {ro : Prop} {rm : K → Bool} (T : Tab K V) (key : K) (now : Nat) :
    Evolve ro rm T (T.modify T.cur (Verif.Table.addDep key now)) :=
  Evolve.modify rfl (fun _ => ⟨rfl, rfl, fun _ => rfl⟩) (fun _ _ _ v h => Or.inl ⟨v, h⟩)
    (fun _ _ o h => ⟨o, h⟩)

theorem Evolve.addEntry {rm : K → Bool} {T : Tab K V} {j : Nat} {key : K} {v : V}
    (he : T.tv.slots j = .empty) :
    Evolve False rm T (T.modify T.cur (Verif.Table.addEntry j key v)) := by
  refine Evolve.modify rfl (fun _ => ⟨rfl, rfl, fun x => False.elim x⟩) ?_ ?_
  · intro _ i k v' e
    have hij : i ≠ j := by
      rintro rfl
      have : T.tv.slots i = .full k v' := e
      rw [he] at this; cases this
    exact Or.inl ⟨v', by simp only [Verif.Table.addEntry, Function.update_of_ne hij]; exact e⟩
  · intro _ i o e
    have hij : i ≠ j := by
      rintro rfl
      have : T.tv.slots i = .deleted o := e
      rw [he] at this; cases this
    exact ⟨o, by simp only [Verif.Table.addEntry, Function.update_of_ne hij]; exact e⟩

theorem Evolve.setEntry {rm : K → Bool} {T : Tab K V} {n j : Nat} {k : K} {v v0 : V}
    (he : (T.vecs n).slots j = .full k v0) :
    Evolve False rm T (T.modify n (Verif.Table.setEntry j k v)) := by
  refine Evolve.modify rfl (fun _ => ⟨rfl, rfl, fun x => False.elim x⟩) ?_ ?_
  · intro _ i k' v' e
    by_cases hij : i = j
    · subst hij
      rw [he] at e; cases e
      exact Or.inl ⟨v, by simp [Verif.Table.setEntry]⟩
    · exact Or.inl ⟨v', by simp only [Verif.Table.setEntry, Function.update_of_ne hij]; exact e⟩
  · intro _ i o e
    have hij : i ≠ j := by
      rintro rfl
      rw [he] at e; cases e
    exact ⟨o, by simp only [Verif.Table.setEntry, Function.update_of_ne hij]; exact e⟩

theorem Evolve.remEntry {rm : K → Bool} {T : Tab K V} {j : Nat} {k : K} {v0 : V}
    (he : T.tv.slots j = .full k v0) (hk : rm k = true) :
    Evolve False rm T (T.modify T.cur (Verif.Table.remEntry j)) := by
  refine Evolve.modify rfl (fun _ => ⟨rfl, rfl, fun x => False.elim x⟩) ?_ ?_
  · intro _ i k' v' e
    by_cases hij : i = j
    · subst hij
      have : T.tv.slots i = .full k' v' := e
      rw [he] at this; cases this
      exact Or.inr ⟨hk, none, by simp [Verif.Table.remEntry]⟩
    · exact Or.inl ⟨v', by simp only [Verif.Table.remEntry, Function.update_of_ne hij]; exact e⟩
  · intro _ i o e
    have hij : i ≠ j := by
      rintro rfl
      have : T.tv.slots i = .deleted o := e
      rw [he] at this; cases this
    exact ⟨o, by simp only [Verif.Table.remEntry, Function.update_of_ne hij]; exact e⟩

theorem putTry_sat (hW : W.Lawful) {T : Tab K V} {now : Nat} {m : K → Option V}
    (h : TInv W T now m) {j : Nat} {key : K} (v : V) (rm : K → Bool)
    (hs : search W T.tv.count T.tv.slots key (W.hash now key) = some j) (hj : j < T.tv.count)
    (hp : Placed T.tv.slots T.tv.count (W.hash now key) j)
    (h4 : T.tv.slots j = .empty ∨ ∃ k v, T.tv.slots j = .full k v ∧ W.eq key k = true) :
    ∃ b T1, putTry W now T j key v = (b, T1) ∧
      TInv W T1 (now + 2) (if b then mapPut W.eq m key v else m) ∧ Evolve False rm T T1 := by
  unfold putTry
  rcases h4 with he | ⟨k, v0, he, hk⟩
  · rw [he]
    simp only
    unfold putNew
    simp only
    have h1 : TInv W (T.modify T.cur (Verif.Table.addDep key now)) (now + 1) m :=
      h.modify (h.inv.addDep key) h.rep
    have ev1 : Evolve False rm T (T.modify T.cur (Verif.Table.addDep key now)) :=
      Evolve.addDep T key now
    have htv : (T.modify T.cur (Verif.Table.addDep key now)).tv
        = Verif.Table.addDep key now T.tv := modify_tv _ _
    generalize (T.modify T.cur (Verif.Table.addDep key now)) = T1 at *
    by_cases hc : (!isFull T1.tv && !T1.tv.rehashing && !isStale W (now + 1) T1.tv.deps) = true
    · rw [if_pos hc]
      simp at hc
      obtain ⟨⟨c1, c2⟩, c3⟩ := hc
      have hab := h.inv.absent hW hs he (now' := now + 1)
        (by rw [htv] at c3; exact stale_cons c3) (by omega)
      have hsl : T1.tv.slots = T.tv.slots := by rw [htv]; rfl
      have hct : T1.tv.count = T.tv.count := by rw [htv]; rfl
      rw [← hsl, ← hct] at hab hp
      rw [← hct] at hj
      rw [← hsl] at he
      refine ⟨_, _, rfl, ?_, ev1.trans (Evolve.addEntry he)⟩
      rw [if_pos rfl]
      refine (h1.modify (h1.inv.add hW hj he c1 (s := now) ?_ hp hab)
        (h1.rep.add hW hj he hab)).later (Nat.le_succ (now + 1))
      rw [htv]; exact List.mem_cons_self
    · rw [if_neg hc]
      exact ⟨_, _, rfl, h1.later (Nat.le_succ (now + 1)), ev1⟩
  · rw [he]
    simp only
    unfold putOld
    by_cases hr : (!T.tv.rehashing) = true
    · rw [if_pos hr]
      refine ⟨_, _, rfl, ?_, Evolve.setEntry he⟩
      rw [if_pos rfl]
      exact (h.modify (h.inv.set hW hj he) (h.rep.set hW h.inv.uniq hj he hk)).later
        (Nat.le_add_right now 2)
    · rw [if_neg hr]
      exact ⟨_, _, rfl, h.later (Nat.le_add_right now 2), Evolve.refl T⟩

theorem putRetry_sat (hW : W.Lawful) {T : Tab K V} {now : Nat} {m : K → Option V}
    (h : TInv W T now m) (rm : K → Bool) :
    (putRetry W now T).Sat
      (fun r => TInv W r.1 r.2 m ∧ Evolve True rm T r.1 ∧ now ≤ r.2)
      (fun T' now' => TInv W T' now' m ∧ Evolve True rm T T' ∧ now ≤ now') := by
  unfold putRetry
  have key : ∀ g, (rehashTable W (now + 1) T g).Sat
      (fun r => TInv W r.1 r.2 m ∧ Evolve True rm T r.1 ∧ now ≤ r.2)
      (fun T' now' => TInv W T' now' m ∧ Evolve True rm T T' ∧ now ≤ now') := by
    intro g
    refine (rehashTable_sat hW (h.later (Nat.le_add_right now 1)) g rm).mono ?_ ?_
    · rintro ⟨T', now'⟩ ⟨a1, a2, a3, _⟩
      exact ⟨a1, a2, Nat.le_trans (Nat.le_add_right now 1) a3⟩
    · rintro T' now' ⟨a1, a2, a3⟩
      exact ⟨a1, a2, by omega⟩
  split
  · exact key _
  · split
    · exact key _
    · exact ⟨h.later (Nat.le_add_right now 1), Evolve.refl T, Nat.le_add_right now 1⟩

theorem puthash_sat (hW : W.Lawful) (fuel : Nat) : ∀ {T : Tab K V} {now : Nat} {m : K → Option V}
    (_ : TInv W T now m) (key : K) (v : V) (rm : K → Bool),
    (puthash W fuel now T key v).Sat
      (fun r => TInv W r.1 r.2 (mapPut W.eq m key v) ∧ Evolve False rm T r.1 ∧ now ≤ r.2)
      (fun T' now' => TInv W T' now' m ∧ Evolve False rm T T' ∧ now ≤ now') := by
  induction fuel with
  | zero => intros; trivial
  | succ fuel ih =>
    intro T now m h key v rm
    obtain ⟨j, h1, h2, h3, h4⟩ := h.search key (W.hash now key)
    obtain ⟨b, T1, g0, g1, g2⟩ := putTry_sat hW h v rm h1 h2 h3 h4
    simp only [puthash, h1, g0]
    by_cases hr : b = true
    · rw [if_pos hr] at g1 ⊢
      exact ⟨g1, g2, Nat.le_add_right now 2⟩
    · rw [if_neg hr] at g1 ⊢
      refine (putRetry_sat hW g1 rm).bind ?_ ?_
      · rintro ⟨T', now'⟩ ⟨a1, a2, a3⟩
        have a2' := g2.trans (a2.weaken (fun x => False.elim x) fun _ x => x)
        have a3' := Nat.le_trans (Nat.le_add_right now 2) a3
        refine (ih a1 key v rm).mono ?_ ?_
        · rintro ⟨T'', now''⟩ ⟨b2, b3, b4⟩
          exact ⟨b2, a2'.trans b3, Nat.le_trans a3' b4⟩
        · rintro T'' now'' ⟨b2, b3, b4⟩
          exact ⟨b2, a2'.trans b3, Nat.le_trans a3' b4⟩
      · rintro T' now' ⟨a1, a2, a3⟩
        exact ⟨a1, g2.trans (a2.weaken (fun x => False.elim x) fun _ x => x), by omega⟩

/-! ### removing -/

theorem Inv.remove {tv : TV K V} {now : Nat} (h : Inv W tv now) {j : Nat} {k : K} {v0 : V}
    (hj : j < tv.count) (he : tv.slots j = .full k v0) :
    Inv W (remEntry j tv) now := by
  refine ⟨h.good, ?_, ?_, h.lim, ?_, ?_, h.time⟩
  · have := upd_cnt isFound (slots := tv.slots) hj (.deleted none)
    have e1 : isFound (Slot.full k v0) = isFound (Slot.deleted none : Slot K V) := rfl
    rw [he, e1] at this
    have := h.adds
    simp only [Verif.Table.remEntry]
    omega
  · have := upd_cnt isDeleted (slots := tv.slots) hj (.deleted none)
    have e1 : isDeleted (Slot.full k v0) = false := rfl
    have e2 : isDeleted (Slot.deleted none : Slot K V) = true := rfl
    rw [he, e1, e2, if_pos rfl, if_neg (by decide)] at this
    have := h.dels
    simp only [Verif.Table.remEntry]
    omega
  · exact upd_uniq' rfl h.uniq
  · intro i k' v' hi e
    simp only [Verif.Table.remEntry] at hi e ⊢
    by_cases hij : i = j
    · subst hij
      rw [Function.update_self] at e
      cases e
    · rw [Function.update_of_ne hij] at e
      obtain ⟨s', a, b⟩ := h.placed i k' v' hi e
      exact ⟨s', a, b.update rfl⟩

theorem Rep.remove (hW : W.Lawful) {tv : TV K V} {m : K → Option V} (h : Rep W tv m) {j : Nat}
    {key k : K} {v0 : V} (hu : Uniq W tv.slots tv.count) (hj : j < tv.count)
    (he : tv.slots j = .full k v0) (hk : W.eq key k = true) :
    Rep W (remEntry j tv) (mapRemove W.eq m key) := by
  intro k1 v1
  unfold mapRemove
  simp only [Verif.Table.remEntry]
  by_cases hq : W.eq k1 key = true
  · rw [if_pos hq]
    constructor
    · intro e; cases e
    · rintro ⟨k', ⟨i, hi, e⟩, b⟩
      by_cases hij : i = j
      · rw [hij, Function.update_self] at e
        cases e
      · rw [Function.update_of_ne hij] at e
        exact absurd (hu i j k' v1 k v0 hi hj e he
          (hW.trans _ _ _ (hW.symm _ _ b) (hW.trans _ _ _ hq hk))) hij
  · rw [if_neg hq, h k1 v1]
    constructor
    · rintro ⟨k', ⟨i, hi, e⟩, b⟩
      have hij : i ≠ j := by
        rintro rfl
        rw [he] at e
        cases e
        exact hq (hW.trans _ _ _ b (hW.symm _ _ hk))
      exact ⟨k', ⟨i, hi, by rw [Function.update_of_ne hij]; exact e⟩, b⟩
    · rintro ⟨k', ⟨i, hi, e⟩, b⟩
      by_cases hij : i = j
      · rw [hij, Function.update_self] at e
        cases e
      · rw [Function.update_of_ne hij] at e
        exact ⟨k', ⟨i, hi, e⟩, b⟩

theorem mapRemove_none {m : K → Option V} {key : K}
    (h : ∀ k, W.eq k key = true → m k = m key) (hn : m key = none) : mapRemove W.eq m key = m := by
  funext k
  unfold mapRemove
  split
  · rename_i e; rw [h k e, hn]
  · rfl

theorem Rep.respects (hW : W.Lawful) {tv : TV K V} {m : K → Option V} (h : Rep W tv m) {a b : K}
    (hab : W.eq a b = true) : m a = m b := by
  have key : ∀ a b v, W.eq a b = true → m a = some v → m b = some v := by
    intro a b v hab e
    obtain ⟨k, x, y⟩ := (h a v).1 e
    exact (h b v).2 ⟨k, x, hW.trans _ _ _ (hW.symm _ _ hab) y⟩
  cases ha : m a with
  | some v => exact (key a b v hab ha).symm
  | none =>
    cases hb : m b with
    | none => rfl
    | some v => rw [key b a v (hW.symm _ _ hab) hb] at ha; cases ha

theorem removeKey_sat (hW : W.Lawful) (fuel : Nat) : ∀ {T : Tab K V} {now : Nat} {m : K → Option V}
    (_ : TInv W T now m) (key : K),
    (removeKey W fuel now T key).Sat
      (fun r => r.1 = (m key).isSome ∧ TInv W r.2.1 r.2.2 (mapRemove W.eq m key) ∧
        Evolve False (W.eq key) T r.2.1 ∧ now ≤ r.2.2)
      (fun T' now' => TInv W T' now' m ∧ Evolve False (fun _ => false) T T' ∧ now ≤ now') := by
  induction fuel with
  | zero => intros; trivial
  | succ fuel ih =>
    intro T now m h key
    obtain ⟨j, h1, h2, h3, h4⟩ := h.search key (W.hash now key)
    simp only [removeKey, h1]
    have retry : needsRehash W (now + 1) T.tv = true →
        ((rehashTable W (now + 2) T false).bind fun s => removeKey W fuel s.2 s.1 key).Sat
        (fun r => r.1 = (m key).isSome ∧ TInv W r.2.1 r.2.2 (mapRemove W.eq m key) ∧
          Evolve False (W.eq key) T r.2.1 ∧ now ≤ r.2.2)
        (fun T' now' => TInv W T' now' m ∧ Evolve False (fun _ => false) T T' ∧ now ≤ now') := by
      intro _
      refine (rehashTable_sat hW (h.later (Nat.le_add_right now 2)) false (fun _ => false)).bind ?_ ?_
      · rintro ⟨T', now'⟩ ⟨a1, a2, a3, _⟩
        have a2' : Evolve False (fun _ => false) T T' := a2.weaken (fun x => False.elim x) fun _ x => x
        have a2'' : Evolve False (W.eq key) T T' := a2'.weaken (fun x => x) (fun _ x => by cases x)
        have a3' := Nat.le_trans (Nat.le_add_right now 2) a3
        refine (ih a1 key).mono ?_ ?_
        · rintro ⟨o, T'', now''⟩ ⟨b1, b2, b3, b4⟩
          exact ⟨b1, b2, a2''.trans b3, Nat.le_trans a3' b4⟩
        · rintro T'' now'' ⟨b2, b3, b4⟩
          exact ⟨b2, a2'.trans b3, Nat.le_trans a3' b4⟩
      · rintro T' now' ⟨a1, a2, a3⟩
        exact ⟨a1, a2.weaken (fun x => False.elim x) fun _ x => x, by omega⟩
    rcases h4 with he | ⟨k, v, he, hk⟩
    · have e0 : remTry T j = (false, T) := by unfold remTry; rw [he]
      have e1 : isFound (T.tv.slots j) = false := by rw [he]; rfl
      simp only [e0, e1]
      rw [if_neg (by simp)]
      by_cases hr : needsRehash W (now + 1) T.tv = true
      · rw [if_pos hr]
        exact retry hr
      · rw [if_neg hr, if_neg (by decide)]
        have hst : isStale W (now + 1) T.tv.deps = false := by
          simp [needsRehash] at hr; simpa using hr.2
        have hn := h.missing hW h1 he hst (by omega)
        refine ⟨by rw [hn]; rfl, ?_, Evolve.refl T, Nat.le_add_right now 2⟩
        rw [mapRemove_none (fun k hk => h.rep.respects hW hk) hn]
        exact h.later (Nat.le_add_right now 2)
    · have e0 : remTry T j = tryRem T j := by unfold remTry; rw [he]
      rw [e0]
      unfold tryRem
      by_cases hr : (!T.tv.rehashing) = true
      · rw [if_pos hr, if_pos rfl]
        exact ⟨by rw [h.found h2 he hk]; rfl,
          (h.modify (h.inv.remove h2 he) (h.rep.remove hW h.inv.uniq h2 he hk)).later
            (Nat.le_add_right now 1), Evolve.remEntry he hk, Nat.le_add_right now 1⟩
      · have hn : needsRehash W (now + 1) T.tv = true := by
          simp at hr; simp [needsRehash, hr]
        rw [if_neg hr, if_neg (by simp), if_pos hn]
        exact retry hn

theorem mkTV_inv {c : Nat} (hc : Good c) (now : Nat) : Inv W (mkTV c : TV K V) now := by
  refine ⟨hc, ?_, ?_, Nat.zero_le _, ?_, ?_, ?_⟩
  · simp [mkTV, isFound, cnt_false]
  · simp [mkTV, isDeleted, cnt_false]
  · intro i j k v k' v' _ _ e; cases e
  · intro i k v _ e; cases e
  · intro d hd; cases hd

theorem Rep.empty {tv : TV K V} (h : ∀ i, isEntry (tv.slots i) = false) :
    Rep W tv (fun _ => none) := by
  intro k v
  constructor
  · intro e; cases e
  · rintro ⟨k', ⟨i, hi, e⟩, _⟩
    have := h i
    rw [e] at this
    cases this

theorem removeAll_sat {T : Tab K V} {now : Nat} {m : K → Option V} (h : TInv W T now m)
    (rm : K → Bool) :
    (removeAll now T).Sat
      (fun T' => TInv W T' now (fun _ => none) ∧ Evolve False rm T T')
      (fun _ _ => False) := by
  unfold removeAll
  by_cases h0 : T.tv.additions = 0
  · rw [if_pos h0]
    refine ⟨?_, Evolve.refl T⟩
    have : m = fun _ => none := by
      funext k
      cases hk : m k with
      | none => rfl
      | some v =>
        exfalso
        obtain ⟨k', ⟨i, hi, e⟩, _⟩ := (h.rep k v).1 hk
        have ha := h.inv.adds
        have hu := upd_cnt isFound (slots := T.tv.slots) hi .empty
        have e0 : isFound (Slot.empty : Slot K V) = false := rfl
        have e1 : isFound (Slot.full k' v) = true := rfl
        rw [e, e0, e1, if_pos rfl, if_neg (by decide)] at hu
        omega
    rw [← this]
    exact h
  · rw [if_neg h0]
    by_cases hr : T.tv.refs = 0
    · rw [if_pos hr]
      refine ⟨h.modify ?_ (Rep.empty fun i => rfl), ?_⟩
      · have := mkTV_inv (W := W) (V := V) h.inv.good now
        exact ⟨h.inv.good, this.adds, this.dels, Nat.zero_le _, this.uniq, this.placed, this.time⟩
      · refine Evolve.modify rfl ?_ ?_ ?_ <;> intro hne <;> exact absurd hr hne
    · rw [if_neg hr]
      cases hc : computeEntryCount T.initial with
      | none => exact absurd hc h.init
      | some c =>
        exact ⟨h.replace (mkTV_inv (computeEntryCount_spec hc).1 now) (Rep.empty fun i => rfl),
          Evolve.replace _ _⟩

/-! ### size -/

/-- The keys of the entries below `n`. -/
def keysBelow (slots : Nat → Slot K V) : Nat → List K
  | 0 => []
  | n + 1 => match slots n with
    | .full k _ => k :: keysBelow slots n
    | _ => keysBelow slots n

theorem mem_keysBelow {slots : Nat → Slot K V} {k : K} {n : Nat} :
    k ∈ keysBelow slots n ↔ ∃ i v, i < n ∧ slots i = .full k v := by
  induction n with
  | zero => simp [keysBelow]
  | succ n ih =>
    have key : ∀ i v, slots i = .full k v → (i < n + 1 ↔ i < n ∨ i = n) := by intro i v _; omega
    simp only [keysBelow]
    cases hs : slots n with
    | empty =>
      simp only [ih]
      constructor
      · rintro ⟨i, v, a, b⟩; exact ⟨i, v, by omega, b⟩
      · rintro ⟨i, v, a, b⟩
        refine ⟨i, v, ?_, b⟩
        have : i ≠ n := by rintro rfl; rw [hs] at b; cases b
        omega
    | deleted o =>
      simp only [ih]
      constructor
      · rintro ⟨i, v, a, b⟩; exact ⟨i, v, by omega, b⟩
      · rintro ⟨i, v, a, b⟩
        refine ⟨i, v, ?_, b⟩
        have : i ≠ n := by rintro rfl; rw [hs] at b; cases b
        omega
    | full k' v' =>
      simp only [List.mem_cons, ih]
      constructor
      · rintro (e | ⟨i, v, a, b⟩)
        · subst e; exact ⟨n, v', by omega, hs⟩
        · exact ⟨i, v, by omega, b⟩
      · rintro ⟨i, v, a, b⟩
        by_cases e : i = n
        · subst e; rw [hs] at b; cases b; exact Or.inl rfl
        · exact Or.inr ⟨i, v, by omega, b⟩

theorem length_keysBelow (slots : Nat → Slot K V) (n : Nat) :
    (keysBelow slots n).length = cnt (fun i => isEntry (slots i)) n := by
  induction n with
  | zero => rfl
  | succ n ih =>
    have key : ∀ x, slots n = x → (keysBelow slots (n + 1)).length
        = cnt (fun i => isEntry (slots i)) n + (if isEntry x then 1 else 0) := by
      intro x hx
      simp only [keysBelow, hx]
      cases x <;> simp [ih, isEntry]
    exact key _ rfl

theorem pairwise_keysBelow {slots : Nat → Slot K V} {c : Nat} (hu : Uniq W slots c) {n : Nat}
    (hn : n ≤ c) : (keysBelow slots n).Pairwise (fun a b => W.eq a b = false) := by
  induction n with
  | zero => exact List.Pairwise.nil
  | succ n ih =>
    simp only [keysBelow]
    cases hs : slots n with
    | empty => exact ih (by omega)
    | deleted o => exact ih (by omega)
    | full k v =>
      refine List.Pairwise.cons ?_ (ih (by omega))
      intro k' hk'
      obtain ⟨i, v', a, b⟩ := mem_keysBelow.1 hk'
      cases hq : W.eq k k' with
      | false => rfl
      | true =>
        have := hu n i k v k' v' (by omega) (by omega) hs b hq
        omega

theorem TInv.size {T : Tab K V} {now : Nat} {m : K → Option V} (h : TInv W T now m) :
    IsSize W.eq m (size T) := by
  refine ⟨keysBelow T.tv.slots T.tv.count, pairwise_keysBelow h.inv.uniq (Nat.le_refl _), ?_, ?_⟩
  · intro k
    constructor
    · intro hne
      cases hm : m k with
      | none => exact absurd hm hne
      | some v =>
        obtain ⟨k', ⟨i, hi, e⟩, hk⟩ := (h.rep k v).1 hm
        exact ⟨k', mem_keysBelow.2 ⟨i, v, hi, e⟩, hk⟩
    · rintro ⟨k', hk', hk⟩
      obtain ⟨i, v, hi, e⟩ := mem_keysBelow.1 hk'
      rw [(h.rep k v).2 ⟨k', ⟨i, hi, e⟩, hk⟩]
      simp
  · rw [length_keysBelow]
    have h1 := h.inv.adds
    have h2 := h.inv.dels
    have h3 := cnt_entry (slots := T.tv.slots) (c := T.tv.count)
    unfold Verif.Table.size
    omega

end Verif.Table
