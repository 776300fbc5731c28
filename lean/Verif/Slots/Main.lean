/-
The layout of a class: what it contains, and that of the first primary superclass at its start.
-/
import Verif.Slots.Alloc

namespace Verif.Slots

theorem Declared.mono {G : Graph} {n c p a : Nat} {d : SlotDef} (h : Hier G n) (hc : c < n)
    (hp : p ∈ G.cpl c) (hd : Declared G p a d) : Declared G c a d :=
  ⟨(h.mono c hc p hp).subset hd.1, hd.2⟩

theorem sublist_flatMap {α β : Type} (f : α → List β) {l1 l2 : List α} (h : l1.Sublist l2) :
    (l1.flatMap f).Sublist (l2.flatMap f) := by
  induction h with
  | slnil => exact List.Sublist.refl _
  | cons a _ ih => rw [List.flatMap_cons]; exact ih.trans (List.sublist_append_right _ _)
  | cons_cons a _ ih => rw [List.flatMap_cons, List.flatMap_cons]; exact ih.append_left _

theorem DistinctGetters.mono {G : Graph} {n c p : Nat} (h : Hier G n) (hc : c < n)
    (hp : p ∈ G.cpl c) (hd : DistinctGetters G c) : DistinctGetters G p :=
  List.Nodup.sublist (sublist_flatMap _ (h.mono c hc p hp)) hd

theorem Tame.mono {G : Graph} {n c p : Nat} (h : Hier G n) (hc : c < n) (hp : p ∈ G.cpl c)
    (ht : Tame G c) : Tame G p := by
  rcases ht with ht | ht
  · exact Or.inl (ht.mono h hc hp)
  · exact Or.inr (fun a d g hd => ht a d g (hd.mono h hc hp))

theorem declared_direct {G : Graph} {c : Nat} {s : Sd} : (∃ a ∈ G.cpl c, s ∈ G.direct a) ↔
    ∃ a d, Declared G c a d ∧ s = .slot a d := by
  constructor
  · rintro ⟨a, ha, hs⟩
    obtain ⟨d, hd, rfl⟩ := mem_direct.mp hs
    exact ⟨a, d, ⟨ha, hd⟩, rfl⟩
  · rintro ⟨a, d, ⟨ha, hd⟩, rfl⟩
    exact ⟨a, ha, mem_direct.mpr ⟨d, hd, rfl⟩⟩

theorem stored_iff {G : Graph} {c : Nat} {s : Sd} : Stored G c s ↔
    ∃ a d, Declared G c a d ∧ ipart (.slot a d) = some s := by
  constructor
  · rintro ⟨a, d, hd, ⟨h1, rfl⟩ | ⟨g, h1, rfl⟩⟩
    · exact ⟨a, d, hd, by simp [ipart, h1]⟩
    · exact ⟨a, d, hd, by simp [ipart, h1]⟩
  · rintro ⟨a, d, hd, h⟩
    refine ⟨a, d, hd, ?_⟩
    cases ha : d.alloc <;> simp [ipart, ha] at h
    · exact Or.inl ⟨rfl, h.symm⟩
    · exact Or.inr ⟨_, rfl, h.symm⟩

theorem classSlot_iff {G : Graph} {c : Nat} {s : Sd} : ClassSlot G c s ↔
    ∃ a d, Declared G c a d ∧ cpart (.slot a d) = some s := by
  constructor
  · rintro ⟨a, d, hd, h1 | h1, rfl⟩
    · exact ⟨a, d, hd, by simp [cpart, h1]⟩
    · exact ⟨a, d, hd, by simp [cpart, h1]⟩
  · rintro ⟨a, d, hd, h⟩
    refine ⟨a, d, hd, ?_⟩
    cases ha : d.alloc <;> simp [cpart, ha] at h
    · exact ⟨Or.inr rfl, h.symm⟩
    · exact ⟨Or.inl rfl, h.symm⟩

theorem getters_direct (G : Graph) (c : Nat) :
    (G.direct c).map Sd.getter = (G.slots c).map SlotDef.getter := by
  simp [Graph.direct, Sd.getter, Function.comp_def]

theorem getters_flatMap (G : Graph) (cs : List Nat) : (cs.flatMap G.direct).map Sd.getter =
    cs.flatMap (fun a => (G.slots a).map SlotDef.getter) := by
  induction cs with
  | nil => rfl
  | cons c cs ih => simp only [List.flatMap_cons, List.map_append, ih, getters_direct]

theorem perm_flatMap {α β : Type} (f : α → List β) {l1 l2 : List α} (h : l1.Perm l2) :
    (l1.flatMap f).Perm (l2.flatMap f) := by
  induction h with
  | nil => exact List.Perm.refl _
  | cons a _ ih => rw [List.flatMap_cons, List.flatMap_cons]; exact ih.append_left _
  | swap a b l =>
    simp only [List.flatMap_cons, ← List.append_assoc]
    exact List.Perm.append_right _ List.perm_append_comm
  | trans _ _ ih1 ih2 => exact ih1.trans ih2

theorem collect_distinct {G : Graph} {c : Nat} {st : Coll} (hd : DistinctGetters G c)
    (h : collect G (G.cpl c) = .ok st) : st.all = (G.cpl c).reverse.flatMap G.direct := by
  apply (collect_ok _ h).2.2.2
  rw [getters_flatMap]
  exact (perm_flatMap _ (List.reverse_perm _)).nodup_iff.mpr hd

/-- In a tame class every repeated slot is collected. -/
theorem Tame.rep_mem {G : Graph} {c : Nat} {st : Coll} (ht : Tame G c)
    (h : collect G (G.cpl c) = .ok st) {a : Nat} {d : SlotDef} (hd : Declared G c a d)
    (hr : isRep (.slot a d) = true) : Sd.slot a d ∈ st.all := by
  rcases ht with ht | ht
  · rw [collect_distinct ht h]
    exact List.mem_flatMap.mpr ⟨a, List.mem_reverse.mpr hd.1, mem_direct.mpr ⟨d, hd.2, rfl⟩⟩
  · exfalso
    cases ha : d.alloc with
    | repeated g => exact ht a d g hd ha
    | _ => simp [isRep, ha] at hr

theorem rep_repeater {st : Coll} (h : CollInv st) {s : Sd} (hs : s ∈ st.all) (hr : isRep s = true) :
    st.repeater = some s := by
  have h1 : s ∈ st.all.filter isRep := List.mem_filter.mpr ⟨hs, hr⟩
  rwa [h.rep, Option.mem_toList] at h1

/-- What is known of a layout. -/
structure LayoutOk (G : Graph) (ls : List Layout) (c : Nat) (l : Layout) (st : Coll) (X Y : List Sd) :
    Prop where
  coll : collect G (G.cpl c) = .ok st
  eq : l = ⟨st.all, X.map some, Y.map some, st.repeater, st.icount⟩
  xperm : X.Perm (st.all.filterMap ipart)
  yperm : Y.Perm (st.all.filterMap cpart)
  stored : ∀ s, Stored G c s → s ∈ X
  classSlot : ∀ s, ClassSlot G c s → s ∈ Y
  first : ∀ p, firstPrimary G c = some p → ∃ lp Xp Yp, ls[p]? = some lp ∧ lp.ivec = Xp.map some ∧
    lp.cvec = Yp.map some ∧ Xp <+: X ∧ Yp <+: Y

/-- The start of the vectors: those of the first primary class. -/
theorem mergePrimary_ok {fp : Option Nat} {ls : List Layout} {i k : Nat} {v : Vec × Vec}
    {Xp Yp : List Sd} (hn : fp = none → Xp = [] ∧ Yp = [])
    (hs : ∀ p, fp = some p → ∃ lp, ls[p]? = some lp ∧ lp.ivec = Xp.map some ∧ lp.cvec = Yp.map some) :
    mergePrimary fp ls (List.replicate i none) (List.replicate k none) = .ok v ↔
      Xp.length ≤ i ∧ Yp.length ≤ k ∧ v = (filled Xp (i - Xp.length) [], filled Yp (k - Yp.length) []) := by
  have e : ∀ i, List.replicate i (none : Option Sd) = filled [] i [] := by intro i; simp [filled]
  cases hf : fp with
  | none =>
    obtain ⟨rfl, rfl⟩ := hn hf
    simp only [mergePrimary, e, Except.ok.injEq]
    simp [eq_comm]
  | some p =>
    obtain ⟨lp, h1, h2, h3⟩ := hs p hf
    have m1 := mergeVec_filled Xp [] i
    have m2 := mergeVec_filled Yp [] k
    simp only [List.length_nil, List.nil_append] at m1 m2
    simp only [mergePrimary, h1, h2, h3, e, m1, m2]
    by_cases c1 : Xp.length ≤ i
    · by_cases c2 : Yp.length ≤ k
      · simp [c1, c2, eq_comm]
      · simp [c1, c2]
    · simp [c1]

theorem firstPrimary_mem {G : Graph} {c p : Nat} (h : firstPrimary G c = some p) :
    p ∈ (G.cpl c).tail ∧ G.primary p = true :=
  ⟨List.mem_of_find?_eq_some h, by simpa using List.find?_some h⟩

theorem mem_placed {G : Graph} {fp : Option Nat} {cs : List Nat} {a : Nat} :
    a ∈ placed G fp cs ↔ a ∈ cs ∧ ∀ p, fp = some p → a ∉ G.cpl p := by
  simp only [placed, List.mem_filter, List.mem_reverse, Bool.not_eq_eq_eq_not, Bool.not_true]
  cases fp <;> simp

theorem mem_sizes {L : List Sd} {s : Sd} : s ∈ sizes L ↔ ∃ a ∈ L, a.sizeSlot = some s := by
  simp [sizes, List.mem_filterMap]

theorem ipart_split {s t : Sd} (hs : IsSlot s) : ipart s = some t ↔
    (isInst s = true ∧ t = s) ∨ s.sizeSlot = some t := by
  obtain ⟨o, d, rfl⟩ := hs
  cases ha : d.alloc <;> simp [ipart, isInst, Sd.sizeSlot, ha, eq_comm]

theorem computeSlots_ok {G : Graph} {c : Nat} {ls : List Layout}
    (ih : ∀ p ∈ (G.cpl c).tail, ∃ l st X Y, ls[p]? = some l ∧ LayoutOk G ls p l st X Y) (ht : Tame G c) {l : Layout}
    (he : computeSlots G ls c = .ok l) : ∃ st X Y, LayoutOk G ls c l st X Y := by
  simp only [computeSlots] at he
  cases hst : collect G (G.cpl c) with
  | error e => rw [hst] at he; cases he
  | ok st =>
    rw [hst] at he
    simp only at he
    obtain ⟨hI, hsrc, -, -⟩ := collect_ok _ hst
    -- the vectors of the first primary class
    obtain ⟨Xp, Yp, hn, hs⟩ : ∃ Xp Yp : List Sd, (firstPrimary G c = none → Xp = [] ∧ Yp = []) ∧
        (∀ p, firstPrimary G c = some p → (∃ lp, ls[p]? = some lp ∧ lp.ivec = Xp.map some ∧
          lp.cvec = Yp.map some) ∧ (∀ s, Stored G p s → s ∈ Xp) ∧ (∀ s, ClassSlot G p s → s ∈ Yp)) := by
      cases hf : firstPrimary G c with
      | none => exact ⟨[], [], by simp, by simp⟩
      | some p =>
        obtain ⟨hm, -⟩ := firstPrimary_mem hf
        obtain ⟨lp, stp, Xp, Yp, hlp, hok⟩ := ih p hm
        refine ⟨Xp, Yp, by simp, ?_⟩
        rintro p' hp'
        obtain rfl := Option.some.inj hp'
        exact ⟨⟨lp, hlp, by rw [hok.eq], by rw [hok.eq]⟩, hok.stored, hok.classSlot⟩
    cases hmp : mergePrimary (firstPrimary G c) ls (List.replicate st.icount none)
        (List.replicate st.ccount none) with
    | error e => rw [hmp] at he; cases he
    | ok v =>
      rw [hmp] at he
      simp only at he
      obtain ⟨hX, hY, rfl⟩ := (mergePrimary_ok hn (fun p hp => (hs p hp).1)).mp hmp
      cases hal : allocate G (firstPrimary G c) st.repeater st.icount
          (filled Xp (st.icount - Xp.length) [], filled Yp (st.ccount - Yp.length) []) (G.cpl c) with
      | error e => rw [hal] at he; cases he
      | ok v' =>
        rw [hal] at he
        simp only at he
        obtain rfl := Except.ok.inj he
        obtain ⟨hi, hk⟩ := (allocate_iff _ _ _ _ _ _ _).mp hal
        simp only at hi hk
        generalize hL : (placed G (firstPrimary G c) (G.cpl c)).flatMap G.direct = L at hi hk
        have hLmem : ∀ s, s ∈ L ↔ ∃ a d, Declared G c a d ∧ s = .slot a d ∧
            ∀ p, firstPrimary G c = some p → a ∉ G.cpl p := by
          intro s
          rw [← hL, List.mem_flatMap]
          constructor
          · rintro ⟨a, ha, hs'⟩
            obtain ⟨ha1, ha2⟩ := mem_placed.mp ha
            obtain ⟨d, hd, rfl⟩ := mem_direct.mp hs'
            exact ⟨a, d, ⟨ha1, hd⟩, rfl, ha2⟩
          · rintro ⟨a, d, hd, rfl, hp⟩
            exact ⟨a, mem_placed.mpr ⟨hd.1, hp⟩, mem_direct.mpr ⟨d, hd.2, rfl⟩⟩
        have hLs : ∀ s ∈ L, IsSlot s := by
          intro s hs'
          obtain ⟨a, d, -, rfl, -⟩ := (hLmem s).mp hs'
          exact ⟨a, d, rfl⟩
        have hLr : ∀ s ∈ L, isRep s = true → st.repeater = some s := by
          intro s hs' hr
          obtain ⟨a, d, hd, rfl, -⟩ := (hLmem s).mp hs'
          exact rep_repeater hI (ht.rep_mem hst hd hr) hr
        obtain ⟨i1, i2, i3⟩ := (runI_filled _ _ L Xp [] _ _ hLs hLr (by simp; omega)).mp hi
        obtain ⟨k1, k3⟩ := (runC_filled L Yp _ _ hLs).mp hk
        -- everything declared is placed
        have hsX : ∀ s, Stored G c s → s ∈ Xp ++ L.filter isInst ++ sizes L := by
          intro s hs'
          obtain ⟨a, d, hd, hip⟩ := stored_iff.mp hs'
          by_cases hp : ∀ p, firstPrimary G c = some p → a ∉ G.cpl p
          · have hm : Sd.slot a d ∈ L := (hLmem _).mpr ⟨a, d, hd, rfl, hp⟩
            rcases (ipart_split ⟨a, d, rfl⟩).mp hip with ⟨hin, rfl⟩ | hsz
            · exact List.mem_append_left _ (List.mem_append_right _ (List.mem_filter.mpr ⟨hm, hin⟩))
            · exact List.mem_append_right _ (mem_sizes.mpr ⟨_, hm, hsz⟩)
          · push Not at hp
            obtain ⟨p, hp, ha⟩ := hp
            exact List.mem_append_left _ (List.mem_append_left _
              ((hs p hp).2.1 s (stored_iff.mpr ⟨a, d, ⟨ha, hd.2⟩, hip⟩)))
        have hsY : ∀ s, ClassSlot G c s → s ∈ Yp ++ L.filterMap cpart := by
          intro s hs'
          obtain ⟨a, d, hd, hip⟩ := classSlot_iff.mp hs'
          by_cases hp : ∀ p, firstPrimary G c = some p → a ∉ G.cpl p
          · have hm : Sd.slot a d ∈ L := (hLmem _).mpr ⟨a, d, hd, rfl, hp⟩
            exact List.mem_append_right _ (List.mem_filterMap.mpr ⟨_, hm, hip⟩)
          · push Not at hp
            obtain ⟨p, hp, ha⟩ := hp
            exact List.mem_append_left _ ((hs p hp).2.2 s (classSlot_iff.mpr ⟨a, d, ⟨ha, hd.2⟩, hip⟩))
        have hcX : ∀ s ∈ st.all.filterMap ipart, Stored G c s := by
          intro s hs'
          obtain ⟨a, ha, hip⟩ := List.mem_filterMap.mp hs'
          obtain ⟨b, d, hd, rfl⟩ := declared_direct.mp (hsrc a ha)
          exact stored_iff.mpr ⟨b, d, hd, hip⟩
        have hcY : ∀ s ∈ st.all.filterMap cpart, ClassSlot G c s := by
          intro s hs'
          obtain ⟨a, ha, hip⟩ := List.mem_filterMap.mp hs'
          obtain ⟨b, d, hd, rfl⟩ := declared_direct.mp (hsrc a ha)
          exact classSlot_iff.mpr ⟨b, d, hd, hip⟩
        have subX : (st.all.filterMap ipart).Subperm (Xp ++ L.filter isInst ++ sizes L) :=
          (ipart_nodup hI).subperm (fun s hs' => hsX s (hcX s hs'))
        have subY : (st.all.filterMap cpart).Subperm (Yp ++ L.filterMap cpart) :=
          (cpart_nodup hI).subperm (fun s hs' => hsY s (hcY s hs'))
        have lenX := subX.length_le
        have lenY := subY.length_le
        rw [← hI.icount] at lenX
        rw [← hI.ccount] at lenY
        simp only [List.length_append] at lenX lenY
        have eX : v'.1 = (Xp ++ L.filter isInst ++ sizes L).map some := by
          rw [i3]
          have : st.icount - Xp.length - ((L.filter isInst).length + (sizes L).length) = 0 := by omega
          rw [this]
          simp [filled]
        have eY : v'.2 = (Yp ++ L.filterMap cpart).map some := by
          rw [k3]
          have : st.ccount - Yp.length - (L.filterMap cpart).length = 0 := by omega
          rw [this]
          simp [filled]
        refine ⟨st, _, _, hst, by rw [eX, eY], ?_, ?_, hsX, hsY, ?_⟩
        · exact (subX.perm_of_length_le (by simp only [List.length_append]; rw [← hI.icount]; omega)).symm
        · exact (subY.perm_of_length_le (by simp only [List.length_append]; rw [← hI.ccount]; omega)).symm
        · intro p hp
          obtain ⟨lp, h1, h2, h3⟩ := (hs p hp).1
          refine ⟨lp, Xp, Yp, h1, h2, h3, ?_, List.prefix_append _ _⟩
          rw [List.append_assoc]
          exact List.prefix_append _ _

theorem layoutAll_get {G : Graph} : ∀ (n : Nat) (ls : List Layout), layoutAll G n = .ok ls →
    ls.length = n ∧ ∀ c < n, ∃ l, ls[c]? = some l ∧ layoutClass G (ls.take c) c = .ok l := by
  intro n
  induction n with
  | zero =>
    intro ls he
    obtain rfl := Except.ok.inj he
    exact ⟨rfl, by intro c hc; omega⟩
  | succ n ih =>
    intro ls he
    simp only [layoutAll] at he
    cases h1 : layoutAll G n with
    | error e => rw [h1] at he; cases he
    | ok ls1 =>
      rw [h1] at he
      simp only at he
      cases h2 : layoutClass G ls1 n with
      | error e => rw [h2] at he; cases he
      | ok l =>
        rw [h2] at he
        obtain rfl := Except.ok.inj he
        obtain ⟨e1, e2⟩ := ih ls1 h1
        refine ⟨by simp [e1], ?_⟩
        intro c hc
        by_cases hcn : c < n
        · obtain ⟨lc, g1, g2⟩ := e2 c hcn
          refine ⟨lc, by rw [List.getElem?_append_left (by omega)]; exact g1, ?_⟩
          rw [List.take_append_of_le_length (by omega)]
          exact g2
        · have : c = n := by omega
          subst this
          refine ⟨l, by rw [← e1]; simp, ?_⟩
          rw [← e1, List.take_left', e1]
          · exact h2
          · rfl

theorem mergePrimary_take {G : Graph} {n c : Nat} (h : Hier G n) (hc : c < n) (ls : List Layout)
    (iv cv : Vec) :
    mergePrimary (firstPrimary G c) (ls.take c) iv cv = mergePrimary (firstPrimary G c) ls iv cv := by
  cases hf : firstPrimary G c with
  | none => rfl
  | some p =>
    have := h.lt c hc p (firstPrimary_mem hf).1
    simp only [mergePrimary, List.getElem?_take_of_lt this]

theorem computeSlots_take {G : Graph} {n c : Nat} (h : Hier G n) (hc : c < n) (ls : List Layout) :
    computeSlots G (ls.take c) c = computeSlots G ls c := by
  simp only [computeSlots, mergePrimary_take h hc]

theorem layoutClass_ok {G : Graph} {ls : List Layout} {c : Nat} {l : Layout}
    (he : layoutClass G ls c = .ok l) :
    duplicated (G.direct c) = false ∧ respecified G c = false ∧ computeSlots G ls c = .ok l := by
  simp only [layoutClass] at he
  split at he
  · cases he
  · rename_i h1
    split at he
    · cases he
    · rename_i h2
      exact ⟨by simpa using h1, by simpa using h2, he⟩

theorem layout_ok {G : Graph} {n : Nat} (h : Hier G n) {ls : List Layout}
    (he : layoutAll G n = .ok ls) : ∀ c < n, Tame G c →
      ∃ l st X Y, ls[c]? = some l ∧ LayoutOk G ls c l st X Y := by
  obtain ⟨hlen, hget⟩ := layoutAll_get n ls he
  intro c
  induction c using Nat.strongRecOn with
  | _ c ih =>
    intro hc ht
    obtain ⟨l, hl, hcl⟩ := hget c hc
    obtain ⟨-, -, hcs⟩ := layoutClass_ok hcl
    rw [computeSlots_take h hc] at hcs
    obtain ⟨st, X, Y, hok⟩ := computeSlots_ok (fun p hp => by
      have hlt := h.lt c hc p hp
      exact ih p hlt (by omega) (ht.mono h hc (List.mem_of_mem_tail hp))) ht hcs
    exact ⟨l, st, X, Y, hl, hok⟩

/-! ### Success -/

theorem duplicated_iff : ∀ (l : List Sd), duplicated l = false ↔ (l.map Sd.getter).Nodup := by
  intro l
  induction l with
  | nil => simp [duplicated]
  | cons s l ih =>
    simp only [duplicated, Bool.or_eq_false_iff, ih, List.map_cons, List.nodup_cons]
    rw [List.any_eq_false]
    simp only [decide_eq_true_eq, List.mem_map, not_exists, not_and]
    constructor
    · rintro ⟨h1, h2⟩; exact ⟨fun t ht e => h1 t ht e.symm, h2⟩
    · rintro ⟨h1, h2⟩; exact ⟨fun t ht e => h1 t ht e.symm, h2⟩

theorem DistinctGetters.checks {G : Graph} {n c : Nat} (h : Hier G n) (hc : c < n)
    (hd : DistinctGetters G c) : duplicated (G.direct c) = false ∧ respecified G c = false := by
  obtain ⟨t, ht⟩ := h.head c hc
  simp only [DistinctGetters, ht, List.flatMap_cons, List.nodup_append] at hd
  obtain ⟨h1, h2, h3⟩ := hd
  refine ⟨(duplicated_iff _).mpr (by rw [getters_direct]; exact h1), ?_⟩
  simp only [respecified, ht, List.tail_cons]
  rw [List.any_eq_false]
  intro s hs
  rw [Bool.not_eq_true, List.any_eq_false]
  intro a ha
  rw [Bool.not_eq_true, List.any_eq_false]
  intro s' hs'
  simp only [decide_eq_true_eq]
  obtain ⟨d, hd, rfl⟩ := mem_direct.mp hs
  obtain ⟨d', hd', rfl⟩ := mem_direct.mp hs'
  intro e
  exact h3 d.getter (List.mem_map_of_mem hd) d'.getter
    (List.mem_flatMap.mpr ⟨a, ha, List.mem_map_of_mem hd'⟩) e

theorem addSlot_distinct {st : Coll} {o : Nat} {d : SlotDef} (hg : ∀ s ∈ st.all, s.getter ≠ d.getter) :
    (∃ st', addSlot st (.slot o d) = .ok st') ∨
      (addSlot st (.slot o d) = .error .repeats ∧ isRep (.slot o d) = true ∧ st.repeater.isSome = true) := by
  have : ¬ (st.all.any (fun o_1 => decide ((Sd.slot o d).getter = o_1.getter))) = true := by
    rw [List.any_eq_true]
    rintro ⟨s, hs, e⟩
    exact hg s hs (of_decide_eq_true e).symm
  simp only [addSlot, if_neg this]
  cases ha : d.alloc with
  | repeated g =>
    simp only [Sd.alloc, ha]
    by_cases hr : st.repeater.isSome = true
    · right; simp [hr, isRep, ha]
    · left; exact ⟨_, if_neg hr⟩
  | _ => left; simp only [Sd.alloc, ha]; exact ⟨_, rfl⟩

theorem addSlots_distinct {o : Nat} : ∀ (ds : List SlotDef) {st : Coll}, CollInv st →
    (st.all.map Sd.getter ++ ds.map SlotDef.getter).Nodup →
    (∃ st', addSlots st (ds.map (Sd.slot o)) = .ok st') ∨
    (addSlots st (ds.map (Sd.slot o)) = .error .repeats ∧
      ∃ s ∈ st.all ++ ds.map (Sd.slot o), ∃ s' ∈ st.all ++ ds.map (Sd.slot o), isRep s = true ∧
        isRep s' = true ∧ s.getter ≠ s'.getter) := by
  intro ds
  induction ds with
  | nil => intro st _ _; exact Or.inl ⟨st, rfl⟩
  | cons d ds ih =>
    intro st h hn
    have hne : ∀ s ∈ st.all, s.getter ≠ d.getter := by
      intro s hs e
      rw [List.nodup_append] at hn
      exact hn.2.2 s.getter (List.mem_map_of_mem hs) d.getter (by simp) e
    simp only [List.map_cons, addSlots]
    rcases addSlot_distinct (o := o) hne with ⟨st1, h1⟩ | ⟨h1, h2, h3⟩
    · obtain ⟨i1, i2⟩ := addSlot_ok h h1
      have e1 : st1.all = st.all ++ [.slot o d] := by
        rcases i2 with ⟨rfl, s, hs, e⟩ | ⟨e, -⟩
        · exact absurd e (hne s hs)
        · exact e
      simp only [h1]
      rcases ih i1 (by rw [e1]; simpa [Sd.getter] using hn) with h4 | ⟨h4, s, hs, s', hs', h5⟩
      · exact Or.inl h4
      · rw [e1] at hs hs'
        right
        exact ⟨h4, s, by simpa using hs, s', by simpa using hs', h5⟩
    · right
      simp only [h1, true_and]
      obtain ⟨r, hr⟩ := Option.isSome_iff_exists.mp h3
      have hm : r ∈ st.all.filter isRep := by rw [h.rep, hr]; simp
      obtain ⟨hm1, hm2⟩ := List.mem_filter.mp hm
      exact ⟨.slot o d, by simp, r, List.mem_append_left _ hm1, h2, hm2, fun e => hne r hm1 e.symm⟩

theorem collect_distinct_ok {G : Graph} : ∀ (cs : List Nat),
    (cs.flatMap (fun a => (G.slots a).map SlotDef.getter)).Nodup →
    (∃ st, collect G cs = .ok st) ∨ (collect G cs = .error .repeats ∧
      ∃ s ∈ cs.flatMap G.direct, ∃ s' ∈ cs.flatMap G.direct, isRep s = true ∧ isRep s' = true ∧ s.getter ≠ s'.getter) := by
  intro cs
  induction cs with
  | nil => intro _; exact Or.inl ⟨_, rfl⟩
  | cons c cs ih =>
    intro hn
    rw [List.flatMap_cons] at hn
    have hn2 := (List.nodup_append.mp hn).2.1
    simp only [collect, List.flatMap_cons]
    rcases ih hn2 with ⟨st, hst⟩ | ⟨h1, s, hs, s', hs', h2⟩
    · simp only [hst]
      obtain ⟨i1, -, -, i4⟩ := collect_ok _ hst
      have e : st.all = cs.reverse.flatMap G.direct := by
        apply i4
        rw [getters_flatMap]
        exact (perm_flatMap _ (List.reverse_perm _)).nodup_iff.mpr hn2
      have hp : (st.all.map Sd.getter ++ (G.slots c).map SlotDef.getter).Perm
          ((G.slots c).map SlotDef.getter ++ cs.flatMap (fun a => (G.slots a).map SlotDef.getter)) := by
        refine List.perm_append_comm.trans (List.Perm.append_left _ ?_)
        rw [e, getters_flatMap]
        exact perm_flatMap _ (List.reverse_perm _)
      have hmem : ∀ s, s ∈ st.all ++ (G.slots c).map (Sd.slot c) → s ∈ G.direct c ++ cs.flatMap G.direct := by
        intro s hs
        rcases List.mem_append.mp hs with hs | hs
        · rw [e] at hs
          obtain ⟨a, ha, hs⟩ := List.mem_flatMap.mp hs
          exact List.mem_append_right _ (List.mem_flatMap.mpr ⟨a, List.mem_reverse.mp ha, hs⟩)
        · exact List.mem_append_left _ hs
      rcases addSlots_distinct (o := c) (G.slots c) i1 (hp.nodup_iff.mpr hn) with h3 | ⟨h3, s, hs, s', hs', h4⟩
      · exact Or.inl h3
      · exact Or.inr ⟨h3, s, hmem s hs, s', hmem s' hs', h4⟩
    · right
      simp only [h1, true_and]
      exact ⟨s, List.mem_append_right _ hs, s', List.mem_append_right _ hs', h2⟩

theorem ipart_length {L : List Sd} (h : ∀ s ∈ L, IsSlot s) :
    (L.filterMap ipart).length = (L.filter isInst).length + (sizes L).length := by
  induction L with
  | nil => rfl
  | cons s L ih =>
    have ih' := ih (fun x hx => h x (List.mem_cons_of_mem _ hx))
    obtain ⟨o, d, rfl⟩ := h s List.mem_cons_self
    cases ha : d.alloc <;> simp [ipart, isInst, sizes, Sd.sizeSlot, ha] <;>
      simp [sizes] at ih' <;> omega

theorem sizes_length {L : List Sd} (h : ∀ s ∈ L, IsSlot s) : (sizes L).length = (L.filter isRep).length := by
  induction L with
  | nil => rfl
  | cons s L ih =>
    have ih' := ih (fun x hx => h x (List.mem_cons_of_mem _ hx))
    obtain ⟨o, d, rfl⟩ := h s List.mem_cons_self
    cases ha : d.alloc <;> simp [isRep, sizes, Sd.sizeSlot, ha] <;> simpa [sizes] using ih'

theorem filter_sublist_eq {l1 l2 : List Nat} (h : l1.Sublist l2) (hn : l2.Nodup) :
    l2.filter (fun x => decide (x ∈ l1)) = l1 := by
  induction h with
  | slnil => rfl
  | @cons l1 l2 a hs ih =>
    have hn' := List.nodup_cons.mp hn
    rw [List.filter_cons_of_neg (by simpa using fun hm => hn'.1 (hs.subset hm))]
    exact ih hn'.2
  | @cons_cons l1 l2 a hs ih =>
    have hn' := List.nodup_cons.mp hn
    rw [List.filter_cons_of_pos (by simp)]
    congr 1
    rw [← ih hn'.2]
    apply List.filter_congr
    intro x hx
    have : x ≠ a := by rintro rfl; exact hn'.1 hx
    rw [ih hn'.2]
    simp [this]

theorem computeSlots_total {G : Graph} {n c : Nat} (h : Hier G n) (hc : c < n) {ls : List Layout}
    (ih : ∀ p ∈ (G.cpl c).tail, ∃ l st X Y, ls[p]? = some l ∧ LayoutOk G ls p l st X Y)
    (hd : DistinctGetters G c) {st : Coll} (hst : collect G (G.cpl c) = .ok st) :
    ∃ l, computeSlots G ls c = .ok l := by
  obtain ⟨hI, hsrc, -, -⟩ := collect_ok _ hst
  have hall := collect_distinct hd hst
  obtain ⟨Xp, Yp, Q, hn, hs, hX, hY, hQ⟩ : ∃ (Xp Yp : List Sd) (Q : List Nat),
      (firstPrimary G c = none → Xp = [] ∧ Yp = []) ∧
      (∀ p, firstPrimary G c = some p → ∃ lp, ls[p]? = some lp ∧ lp.ivec = Xp.map some ∧
        lp.cvec = Yp.map some) ∧
      Xp.Perm ((Q.flatMap G.direct).filterMap ipart) ∧ Yp.Perm ((Q.flatMap G.direct).filterMap cpart) ∧
      (Q ++ placed G (firstPrimary G c) (G.cpl c)).Perm (G.cpl c) := by
    cases hf : firstPrimary G c with
    | none =>
      refine ⟨[], [], [], by simp, by simp, by simp, by simp, ?_⟩
      simp only [placed, Option.any_none, Bool.not_false, List.filter_true, List.nil_append]
      exact List.reverse_perm _
    | some p =>
      obtain ⟨hm, -⟩ := firstPrimary_mem hf
      have hm' := List.mem_of_mem_tail hm
      obtain ⟨lp, stp, Xp, Yp, hlp, hok⟩ := ih p hm
      have hap := collect_distinct (hd.mono h hc hm') hok.coll
      have hqp : (stp.all).Perm ((G.cpl p).flatMap G.direct) := by
        rw [hap]; exact perm_flatMap _ (List.reverse_perm _)
      refine ⟨Xp, Yp, G.cpl p, by simp, ?_, hok.xperm.trans (hqp.filterMap _),
        hok.yperm.trans (hqp.filterMap _), ?_⟩
      · rintro p' hp'
        obtain rfl := Option.some.inj hp'
        exact ⟨lp, hlp, by rw [hok.eq], by rw [hok.eq]⟩
      · have e1 := filter_sublist_eq (h.mono c hc p hm') (h.nodup c hc)
        have e2 : (placed G (some p) (G.cpl c)).Perm ((G.cpl c).filter (fun x => !decide (x ∈ G.cpl p))) := by
          simp only [placed, Option.any_some]
          exact (List.reverse_perm _).filter _
        refine (List.Perm.append_left _ e2).trans ?_
        have e3 := List.filter_append_perm (fun x => decide (x ∈ G.cpl p)) (G.cpl c)
        rw [e1] at e3
        exact e3
  generalize hL : (placed G (firstPrimary G c) (G.cpl c)).flatMap G.direct = L at *
  have hLs : ∀ s ∈ L, IsSlot s := by
    intro s hs'
    rw [← hL] at hs'
    obtain ⟨a, -, hs'⟩ := List.mem_flatMap.mp hs'
    obtain ⟨d, -, rfl⟩ := mem_direct.mp hs'
    exact ⟨a, d, rfl⟩
  have hperm : (Q.flatMap G.direct ++ L).Perm st.all := by
    rw [hall, ← hL, ← List.flatMap_append]
    exact (perm_flatMap _ hQ).trans (perm_flatMap _ (List.reverse_perm _).symm)
  have hLmem : ∀ s ∈ L, s ∈ st.all := fun s hs' => hperm.subset (List.mem_append_right _ hs')
  have lx : Xp.length + (L.filterMap ipart).length = st.icount := by
    rw [hI.icount, hX.length_eq, ← List.length_append, ← List.filterMap_append]
    exact (hperm.filterMap _).length_eq
  have ly : Yp.length + (L.filterMap cpart).length = st.ccount := by
    rw [hI.ccount, hY.length_eq, ← List.length_append, ← List.filterMap_append]
    exact (hperm.filterMap _).length_eq
  have lr : (sizes L).length ≤ 1 := by
    rw [sizes_length hLs]
    have : (L.filter isRep).length ≤ (st.all.filter isRep).length := by
      rw [← (hperm.filter isRep).length_eq, List.filter_append, List.length_append]
      omega
    rw [hI.rep] at this
    cases hr : st.repeater with
    | none => rw [hr] at this; exact Nat.le_trans this (by simp)
    | some r => rw [hr] at this; simpa using this
  rw [ipart_length hLs] at lx
  have m := (mergePrimary_ok (ls := ls) (i := st.icount) (k := st.ccount) hn hs).mpr
    ⟨by omega, by omega, rfl⟩
  have r1 := (runI_filled st.repeater st.icount L Xp [] (st.icount - Xp.length) _ hLs
    (fun s hs' hr => rep_repeater hI (hLmem s hs') hr) (by simp; omega)).mpr ⟨by omega, Or.inl (by simpa using lr), rfl⟩
  have r2 := (runC_filled L Yp (st.ccount - Yp.length) _ hLs).mpr ⟨by omega, rfl⟩
  have a := (allocate_iff G (firstPrimary G c) st.repeater st.icount
    (filled Xp (st.icount - Xp.length) [], filled Yp (st.ccount - Yp.length) []) (G.cpl c) (_, _)).mpr
    (by rw [hL]; exact ⟨r1, r2⟩)
  simp only [computeSlots, hst, m, a]
  exact ⟨_, rfl⟩

end Verif.Slots
