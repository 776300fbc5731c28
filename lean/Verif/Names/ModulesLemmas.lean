import Verif.Names.ModulesSpec
import Verif.Names.FilterProps

namespace Verif.Names

/-! ### Tables -/

theorem get_remove {β : Type} (t : List (Name × β)) (n k : Name) :
    get (remove t n) k = if k = n then none else get t k := by
  induction t with
  | nil => simp [remove, get]
  | cons p t ih =>
    obtain ⟨a, v⟩ := p
    unfold remove at ih ⊢
    by_cases h : a = n
    · subst h
      simp only [decide_true, Bool.not_true, Bool.false_eq_true,
        not_false_eq_true, List.filter_cons_of_neg]
      rw [ih]
      simp only [get]
      by_cases hk : k = a
      · simp [hk]
      · rw [if_neg hk, if_neg hk, if_neg (fun e => hk e.symm)]
    · rw [List.filter_cons_of_pos (by simp [h])]
      simp only [get]
      by_cases hk : a = k
      · subst hk
        simp [h]
      · rw [if_neg hk, if_neg hk, ih]

theorem get_put {β : Type} (t : List (Name × β)) (n k : Name) (v : β) :
    get (put t n v) k = if k = n then some v else get t k := by
  unfold put
  simp only [get]
  by_cases h : n = k
  · simp [h]
  · rw [if_neg h, get_remove]
    by_cases hk : k = n
    · exact absurd hk.symm h
    · rw [if_neg hk, if_neg hk]

theorem mem_of_get {β : Type} (t : List (Name × β)) (n : Name) (v : β)
    (h : get t n = some v) : (n, v) ∈ t := by
  induction t with
  | nil => cases h
  | cons p t ih =>
    obtain ⟨a, w⟩ := p
    simp only [get] at h
    split at h
    · next e =>
      cases h
      subst e
      exact List.mem_cons_self
    · exact List.mem_cons_of_mem _ (ih h)

/-- Each key has one entry. -/
def Keys {β : Type} (t : List (Name × β)) : Prop :=
  ∀ n v, (n, v) ∈ t → get t n = some v

theorem Keys.put {β : Type} {t : List (Name × β)} (h : Keys t) (n : Name)
    (v : β) : Keys (put t n v) := by
  intro k w hk
  rw [get_put]
  rcases List.mem_cons.1 hk with hk | hk
  · cases hk
    simp
  · obtain ⟨h1, h2⟩ := List.mem_filter.1 hk
    simp only [Bool.not_eq_true', decide_eq_false_iff_not] at h2
    rw [if_neg h2]
    exact h k w h1

/-! ### Invariants -/

def Own (D : Nat → Decl) (i : Nat) (n : Name) : Prop :=
  n ∈ (D i).exports ∨ n ∈ (D i).creates

/-- Passed on by a `use` clause of module `i`. -/
def Passed (D : Nat → Decl) (i : Nat) (l : Name) (b : Binding) : Prop :=
  ∃ u ∈ (D i).uses, u.used < i ∧
    ∃ n, Exports D u.used n b ∧ Visible u n l ∧ PassedOn u l

theorem exports_iff (D : Nat → Decl) (i : Nat) (n : Name) (b : Binding) :
    Exports D i n b ↔ (Own D i n ∧ b = ⟨i, n⟩) ∨ Passed D i n b := by
  constructor
  · intro h
    cases h with
    | own h => exact Or.inl ⟨h, rfl⟩
    | passed hu hi he hv hp => exact Or.inr ⟨_, hu, hi, _, he, hv, hp⟩
  · rintro (⟨h, rfl⟩ | ⟨u, hu, hi, n', he, hv, hp⟩)
    · exact Exports.own h
    · exact Exports.passed hu hi he hv hp

theorem Passed.imported {D : Nat → Decl} {i : Nat} {l : Name} {b : Binding}
    (h : Passed D i l b) : Imported D i l b := by
  obtain ⟨u, hu, hi, n, he, hv, _⟩ := h
  exact ⟨u, hu, hi, n, he, hv⟩

structure InvM (D : Nat → Decl) (i : Nat) (m : Mod) : Prop where
  uses : m.uses = (D i).uses.filter (fun u => decide (u.used < i))
  exported : ∀ n, n ∈ m.exported ↔ Own D i n
  locals : ∀ n b, get m.locals n = some b →
    b = ⟨i, n⟩ ∧ ∀ b', ¬ Imported D i n b'
  ownLocal : ∀ n, Own D i n → get m.locals n = some ⟨i, n⟩
  cacheSome : ∀ n b, get m.cache n = some (some b) → Imported D i n b
  cacheNone : ∀ n, get m.cache n = some none → ∀ b, ¬ Imported D i n b

def TabOK (D : Nat → Decl) (i : Nat) (m : Mod) : Prop :=
  ∀ t, m.reexp = some t → Keys t ∧ ∀ n b, get t n = some b ↔ Passed D i n b

/-- A module whose table is being made. -/
structure Part (D : Nat → Decl) (i : Nat) (m : Mod) (t : List (Name × Binding)) :
    Prop where
  inv : InvM D i m
  tab : m.reexp = some t
  keys : Keys t
  sound : ∀ n b, get t n = some b → Passed D i n b

/-- What was in the table is still there. -/
def Ext (t t' : List (Name × Binding)) : Prop :=
  ∀ n b, get t n = some b → get t' n = some b

theorem passOn_part {D : Nat → Decl} {i : Nat} {sp : Name → List Char}
    (hc : Clean sp D i) (b : Binding) :
    ∀ (ls : List Name) (m : Mod) (t : List (Name × Binding)),
      Part D i m t → (∀ l ∈ ls, Passed D i l b) →
      ∃ t', Part D i (passOn m ls b) t' ∧ Ext t t' ∧
        ∀ l ∈ ls, get t' l = some b := by
  intro ls
  induction ls with
  | nil =>
    intro m t hp _
    exact ⟨t, hp, fun _ _ h => h, fun _ h => by cases h⟩
  | cons l ls ih =>
    intro m t hp hl
    have hpl := hl l List.mem_cons_self
    have hext : Ext t (put t l b) := by
      intro n b' h
      rw [get_put]
      split
      · next e =>
        subst e
        rw [hc.one n b b' hpl.imported (hp.sound _ _ h).imported]
      · exact h
    have hp' : Part D i { m with reexp := m.reexp.map (fun t => put t l b)
                                 cache := remove m.cache l } (put t l b) := by
      refine ⟨⟨hp.inv.uses, hp.inv.exported, hp.inv.locals, hp.inv.ownLocal,
        ?_, ?_⟩, ?_, hp.keys.put l b, ?_⟩
      · intro n b' h
        simp only at h
        rw [get_remove] at h
        split at h
        · cases h
        · exact hp.inv.cacheSome n b' h
      · intro n h
        simp only at h
        rw [get_remove] at h
        split at h
        · cases h
        · exact hp.inv.cacheNone n h
      · simp only
        rw [hp.tab]
        rfl
      · intro n b' h
        rw [get_put] at h
        split at h
        · next e =>
          cases h
          subst e
          exact hpl
        · exact hp.sound n b' h
    obtain ⟨t', h1, h2, h3⟩ := ih _ _ hp' (fun l' h => hl l' (List.mem_cons_of_mem _ h))
    refine ⟨t', h1, fun n b' h => h2 _ _ (hext _ _ h), ?_⟩
    intro l' hl'
    rcases List.mem_cons.1 hl' with rfl | hl'
    · apply h2
      rw [get_put, if_pos rfl]
    · exact h3 l' hl'

theorem upd_self (s : St) (i : Nat) (f : Mod → Mod) :
    (s.upd i f).mods i = f (s.mods i) := by simp [St.upd]

theorem upd_other (s : St) {i j : Nat} (f : Mod → Mod) (h : j ≠ i) :
    (s.upd i f).mods j = s.mods j := by simp [St.upd, h]

/-- Nothing but module `i` changed. -/
structure Only (i : Nat) (s s' : St) : Prop where
  others : ∀ j, j ≠ i → s'.mods j = s.mods j
  count : s'.count = s.count
  err : s'.err = s.err

theorem Only.trans {i : Nat} {a b c : St} (h1 : Only i a b) (h2 : Only i b c) :
    Only i a c :=
  ⟨fun j hj => (h2.others j hj).trans (h1.others j hj),
   h2.count.trans h1.count, h2.err.trans h1.err⟩

theorem Only.refl (i : Nat) (s : St) : Only i s s := ⟨fun _ _ => rfl, rfl, rfl⟩

theorem only_upd (s : St) (i : Nat) (f : Mod → Mod) : Only i s (s.upd i f) :=
  ⟨fun _ hj => upd_other s f hj, rfl, rfl⟩

variable {D : Nat → Decl} {sp : Name → List Char}

theorem passNames_ok (hsp : Spelling sp) {i : Nat} (hc : Clean sp D i) {u : Use}
    (hu : u ∈ (D i).uses) (hi : u.used < i) :
    ∀ (ns : List Name) (s : St) (t : List (Name × Binding)),
      Part D i (s.mods i) t → InvM D u.used (s.mods u.used) →
      (∀ n ∈ ns, Own D u.used n) →
      ∃ t', Part D i ((passNames sp i u ns s).mods i) t' ∧ Ext t t' ∧
        Only i s (passNames sp i u ns s) ∧
        ∀ n ∈ ns, ∀ l ∈ filterExportedName sp u n,
          get t' l = some ⟨u.used, n⟩ := by
  intro ns
  induction ns with
  | nil =>
    intro s t hp _ _
    exact ⟨t, hp, fun _ _ h => h, Only.refl i s, fun _ h => by cases h⟩
  | cons n ns ih =>
    intro s t hp hinv hown
    unfold passNames
    split
    · next he =>
      obtain ⟨t', h1, h2, h3, h4⟩ :=
        ih s t hp hinv (fun n' h => hown n' (List.mem_cons_of_mem _ h))
      refine ⟨t', h1, h2, h3, ?_⟩
      intro n' hn' l hl
      rcases List.mem_cons.1 hn' with rfl | hn'
      · rw [List.isEmpty_iff.1 he] at hl
        cases hl
      · exact h4 n' hn' l hl
    · have hn := hown n List.mem_cons_self
      have hd : nameDef s u.used n = some ⟨u.used, n⟩ := hinv.ownLocal n hn
      rw [hd]
      dsimp only
      have hpass : ∀ l ∈ filterExportedName sp u n,
          Passed D i l ⟨u.used, n⟩ := by
        intro l hl
        obtain ⟨hv, hp⟩ := (filter_exported_names hsp u n l).1 hl
        exact ⟨u, hu, hi, n, Exports.own hn, hv, hp⟩
      obtain ⟨t1, a1, a2, a3⟩ := passOn_part hc _ _ _ _ hp hpass
      have hne : u.used ≠ i := by omega
      obtain ⟨t', h1, h2, h3, h4⟩ := ih
        (s.upd i (fun m => passOn m (filterExportedName sp u n) ⟨u.used, n⟩)) t1
        (by rw [upd_self]; exact a1) (by rw [upd_other _ _ hne]; exact hinv)
        (fun n' h => hown n' (List.mem_cons_of_mem _ h))
      refine ⟨t', h1, fun a b h => h2 _ _ (a2 _ _ h), (only_upd _ _ _).trans h3, ?_⟩
      intro n' hn' l hl
      rcases List.mem_cons.1 hn' with rfl | hn'
      · exact h2 _ _ (a3 l hl)
      · exact h4 n' hn' l hl

theorem passTable_ok (hsp : Spelling sp) {i : Nat} (hc : Clean sp D i) {u : Use}
    (hu : u ∈ (D i).uses) (hi : u.used < i) :
    ∀ (ps : List (Name × Binding)) (s : St) (t : List (Name × Binding)),
      Part D i (s.mods i) t →
      (∀ p ∈ ps, Passed D u.used p.1 p.2) →
      ∃ t', Part D i ((passTable sp i u ps s).mods i) t' ∧ Ext t t' ∧
        Only i s (passTable sp i u ps s) ∧
        ∀ p ∈ ps, ∀ l ∈ filterExportedName sp u p.1, get t' l = some p.2 := by
  intro ps
  induction ps with
  | nil =>
    intro s t hp _
    exact ⟨t, hp, fun _ _ h => h, Only.refl i s, fun _ h => by cases h⟩
  | cons p ps ih =>
    intro s t hp hps
    unfold passTable
    have hpass : ∀ l ∈ filterExportedName sp u p.1, Passed D i l p.2 := by
      intro l hl
      obtain ⟨hv, hpo⟩ := (filter_exported_names hsp u p.1 l).1 hl
      exact ⟨u, hu, hi, p.1,
        (exports_iff _ _ _ _).2 (Or.inr (hps p List.mem_cons_self)), hv, hpo⟩
    obtain ⟨t1, a1, a2, a3⟩ := passOn_part hc _ _ _ _ hp hpass
    obtain ⟨t', h1, h2, h3, h4⟩ := ih
      (s.upd i (fun m => passOn m (filterExportedName sp u p.1) p.2)) t1
      (by rw [upd_self]; exact a1)
      (fun p' h => hps p' (List.mem_cons_of_mem _ h))
    refine ⟨t', h1, fun a b h => h2 _ _ (a2 _ _ h), (only_upd _ _ _).trans h3, ?_⟩
    intro p' hp' l hl
    rcases List.mem_cons.1 hp' with rfl | hp'
    · exact h2 _ _ (a3 l hl)
    · exact h4 p' hp' l hl

/-- The modules up to `i` are as they should be. -/
def Below (D : Nat → Decl) (i : Nat) (s : St) : Prop :=
  ∀ j, j ≤ i → InvM D j (s.mods j) ∧ TabOK D j (s.mods j)

/-- What making a table does. -/
structure Made (D : Nat → Decl) (i : Nat) (s s' : St) : Prop where
  count : s'.count = s.count
  err : s'.err = s.err
  above : ∀ k, i < k → s'.mods k = s.mods k
  below : Below D i s'
  made : (s'.mods i).reexp.isSome = true

/-- The body of the loop over the `use` clauses in `exportedImports`. -/
def passUse (o : Order) (sp : Name → List Char) (depth i : Nat) (s : St)
    (u : Use) : St :=
  if u.used < s.count then
    let s := passNames sp i u (o.names (s.mods u.used).exported) s
    let s := exportedImports o sp depth u.used s
    passTable sp i u (o.table (tableOf s u.used)) s
  else { s with err := true }

theorem passUses_ok (o : Order) (hsp : Spelling sp) {depth i : Nat}
    (hc : Clean sp D i)
    (ih : ∀ (j : Nat) (s : St), j < i → j < s.count → Below D j s →
      Made D j s (exportedImports o sp depth j s)) :
    ∀ (us : List Use) (s : St) (t : List (Name × Binding)),
      (∀ u ∈ us, u ∈ (D i).uses ∧ u.used < i) → i < s.count →
      Part D i (s.mods i) t →
      (∀ j, j < i → InvM D j (s.mods j) ∧ TabOK D j (s.mods j)) →
      let s' := us.foldl (passUse o sp depth i) s
      ∃ t', Part D i (s'.mods i) t' ∧ Ext t t' ∧ s'.count = s.count ∧
        s'.err = s.err ∧ (∀ k, i < k → s'.mods k = s.mods k) ∧
        (∀ j, j < i → InvM D j (s'.mods j) ∧ TabOK D j (s'.mods j)) ∧
        ∀ u ∈ us, ∀ n b l, Exports D u.used n b → Visible u n l →
          PassedOn u l → get t' l = some b := by
  intro us
  induction us with
  | nil =>
    intro s t _ _ hp hb
    exact ⟨t, hp, fun _ _ h => h, rfl, rfl, fun _ _ => rfl, hb,
      fun _ h => by cases h⟩
  | cons u us ihus =>
    intro s t hus hcount hp hb
    obtain ⟨hu, hi⟩ := hus u List.mem_cons_self
    have hne : u.used ≠ i := by omega
    have hnei : i ≠ u.used := fun e => hne e.symm
    -- the names the used module exports itself
    obtain ⟨t1, a1, a2, a3, a4⟩ := passNames_ok hsp hc hu hi
      (o.names (s.mods u.used).exported) s t hp (hb _ hi).1
      (fun n hn => ((hb _ hi).1.exported n).1 ((o.mem_names _ _).1 hn))
    generalize hs1 : passNames sp i u (o.names (s.mods u.used).exported) s = s1
      at a1 a3
    have hb1 : ∀ j, j < i → InvM D j (s1.mods j) ∧ TabOK D j (s1.mods j) := by
      intro j hj
      rw [a3.others j (by omega)]
      exact hb j hj
    -- its table
    have hm := ih u.used s1 hi (by rw [a3.count]; omega)
      (fun j hj => hb1 j (by omega))
    generalize hs2 : exportedImports o sp depth u.used s1 = s2 at hm
    have hpart2 : Part D i (s2.mods i) t1 := by
      rw [hm.above i hi]
      exact a1
    have hb2 : ∀ j, j < i → InvM D j (s2.mods j) ∧ TabOK D j (s2.mods j) := by
      intro j hj
      by_cases hju : j ≤ u.used
      · exact hm.below j hju
      · rw [hm.above j (by omega)]
        exact hb1 j hj
    obtain ⟨tu, htu⟩ := Option.isSome_iff_exists.1 hm.made
    have htab : tableOf s2 u.used = tu := by
      unfold tableOf
      rw [htu]
      rfl
    obtain ⟨hk, hget⟩ := (hm.below u.used (Nat.le_refl _)).2 tu htu
    obtain ⟨t3, b1, b2, b3, b4⟩ := passTable_ok hsp hc hu hi
      (o.table (tableOf s2 u.used)) s2 t1 hpart2 (by
        intro p hpm
        rw [o.mem_table, htab] at hpm
        exact (hget _ _).1 (hk p.1 p.2 hpm))
    generalize hs3 : passTable sp i u (o.table (tableOf s2 u.used)) s2 = s3
      at b1 b3
    have hone : passUse o sp depth i s u = s3 := by
      unfold passUse
      rw [if_pos (by omega)]
      dsimp only
      rw [hs1, hs2, hs3]
    rw [List.foldl_cons, hone]
    obtain ⟨t', c1, c2, c3, c4, c5, c6, c7⟩ := ihus s3 t3
      (fun u' h => hus u' (List.mem_cons_of_mem _ h))
      (by rw [b3.count, hm.count, a3.count]; exact hcount) b1
      (by
        intro j hj
        rw [b3.others j (by omega)]
        exact hb2 j hj)
    refine ⟨t', c1, fun n b h => c2 _ _ (b2 _ _ (a2 _ _ h)), ?_, ?_, ?_, c6, ?_⟩
    · rw [c3, b3.count, hm.count, a3.count]
    · rw [c4, b3.err, hm.err, a3.err]
    · intro k hk'
      rw [c5 k hk', b3.others k (by omega), hm.above k (by omega),
        a3.others k (by omega)]
    · intro u' hu' n b l he hv hpo
      rcases List.mem_cons.1 hu' with rfl | hu'
      · have hin := (filter_exported_names hsp u' n l).2 ⟨hv, hpo⟩
        rcases (exports_iff _ _ _ _).1 he with ⟨ho, rfl⟩ | hps
        · exact c2 _ _ (b2 _ _ (a4 n ((o.mem_names _ _).2
            (((hb _ hi).1.exported n).2 ho)) l hin))
        · have hg := (hget n b).2 hps
          have hmem := mem_of_get _ _ _ hg
          rw [← htab, ← o.mem_table] at hmem
          exact c2 _ _ (b4 (n, b) hmem l hin)
      · exact c7 u' hu' n b l he hv hpo

theorem exportedImports_ok (o : Order) (hsp : Spelling sp) :
    ∀ (depth i : Nat) (s : St), i < depth → i < s.count →
      (∀ j, j ≤ i → Clean sp D j) → Below D i s →
      Made D i s (exportedImports o sp depth i s) := by
  intro depth
  induction depth with
  | zero =>
    intro i s h
    omega
  | succ depth ih =>
    intro i s hd hcount hc hb
    unfold exportedImports
    split
    · next h => exact ⟨rfl, rfl, fun _ _ => rfl, hb, h⟩
    · next h =>
      dsimp only
      have hinv := (hb i (Nat.le_refl _)).1
      have hp : Part D i ((s.upd i (fun m => { m with reexp := some [] })).mods i)
          [] := by
        rw [upd_self]
        refine ⟨⟨hinv.uses, hinv.exported, hinv.locals, hinv.ownLocal,
          hinv.cacheSome, hinv.cacheNone⟩, rfl, ?_, ?_⟩
        · intro n v h
          cases h
        · intro n b h
          cases h
      have huses : ((s.upd i (fun m => { m with reexp := some [] })).mods i).uses =
          (s.mods i).uses := by rw [upd_self]
      rw [huses]
      have key := passUses_ok o hsp (hc i (Nat.le_refl _)) (depth := depth)
        (fun j s' hj hjc hbj =>
          ih j s' (by omega) hjc (fun j' hj' => hc j' (by omega)) hbj)
        (s.mods i).uses (s.upd i (fun m => { m with reexp := some [] })) []
        (by
          intro u hu
          rw [hinv.uses, List.mem_filter] at hu
          exact ⟨hu.1, by simpa using hu.2⟩)
        hcount hp
        (by
          intro j hj
          rw [upd_other _ _ (by omega)]
          exact hb j (by omega))
      dsimp only at key
      obtain ⟨t', c1, _, c3, c4, c5, c6, c7⟩ := key
      refine ⟨c3, c4, ?_, ?_, ?_⟩
      · intro k hk
        exact (c5 k hk).trans (upd_other _ _ (by omega))
      · intro j hj
        by_cases hji : j = i
        · subst hji
          refine ⟨c1.inv, ?_⟩
          intro t ht
          have : t = t' := by
            have := c1.tab
            exact Option.some.inj (ht.symm.trans this)
          subst this
          refine ⟨c1.keys, fun n b => ⟨c1.sound n b, ?_⟩⟩
          rintro ⟨u, hu, hi, n', he, hv, hpo⟩
          apply c7 u _ n' b n he hv hpo
          rw [hinv.uses, List.mem_filter]
          exact ⟨hu, by simpa using hi⟩
        · exact c6 j (by omega)
      · have := c1.tab
        show Option.isSome (Mod.reexp (St.mods _ i)) = true
        exact Option.isSome_iff_exists.2 ⟨_, this⟩

/-! ### Looking a name up -/

/-- All the modules are as they should be. -/
structure Inv (D : Nat → Decl) (s : St) : Prop where
  mods : ∀ j, j < s.count → InvM D j (s.mods j) ∧ TabOK D j (s.mods j)
  err : s.err = false

theorem lookupExported_ok (o : Order) (hsp : Spelling sp) {s : St} {i : Nat}
    (hi : i < s.count) (hc : ∀ j, j < s.count → Clean sp D j) (h : Inv D s)
    (n : Name) :
    Inv D (lookupExported o sp s i n).1 ∧
      (lookupExported o sp s i n).1.count = s.count ∧
      (∀ k, i < k → (lookupExported o sp s i n).1.mods k = s.mods k) ∧
      ∀ b, (lookupExported o sp s i n).2 = some b ↔ Exports D i n b := by
  have hinv := (h.mods i hi).1
  unfold lookupExported
  split
  · next hn =>
    have ho := (hinv.exported n).1 hn
    refine ⟨h, rfl, fun _ _ => rfl, ?_⟩
    intro b
    dsimp only
    unfold nameDef
    rw [hinv.ownLocal n ho, exports_iff]
    constructor
    · intro e
      cases e
      exact Or.inl ⟨ho, rfl⟩
    · rintro (⟨_, rfl⟩ | hp)
      · rfl
      · exact absurd hp.imported ((hc i hi).own n b ho)
  · next hn =>
    have hno : ¬ Own D i n := fun ho => hn ((hinv.exported n).2 ho)
    have hm := exportedImports_ok (D := D) o hsp (i + 1) i s (by omega) hi
      (fun j hj => hc j (by omega)) (fun j hj => h.mods j (by omega))
    dsimp only
    generalize exportedImports o sp (i + 1) i s = s' at hm
    refine ⟨⟨?_, by rw [hm.err]; exact h.err⟩, hm.count, hm.above, ?_⟩
    · intro j hj
      rw [hm.count] at hj
      by_cases hji : j ≤ i
      · exact hm.below j hji
      · rw [hm.above j (by omega)]
        exact h.mods j hj
    · intro b
      obtain ⟨t, ht⟩ := Option.isSome_iff_exists.1 hm.made
      have htab : tableOf s' i = t := by
        unfold tableOf
        rw [ht]
        rfl
      rw [htab, ((hm.below i (Nat.le_refl _)).2 t ht).2 n b, exports_iff]
      constructor
      · exact Or.inr
      · rintro (⟨ho, _⟩ | hp)
        · exact absurd ho hno
        · exact hp

theorem lookupImported_ok (o : Order) (hsp : Spelling sp) {i : Nat} (l : Name)
    (N : Nat) (hi : i < N) (hc : ∀ j, j < N → Clean sp D j) :
    ∀ (us : List Use) (s : St), s.count = N → Inv D s →
      (∀ u ∈ us, u ∈ (D i).uses ∧ u.used < i) →
      Inv D (lookupImported o sp us s l).1 ∧
      (lookupImported o sp us s l).1.count = s.count ∧
      (∀ k, i ≤ k → (lookupImported o sp us s l).1.mods k = s.mods k) ∧
      (∀ b, (lookupImported o sp us s l).2 = some b → Imported D i l b) ∧
      ((lookupImported o sp us s l).2 = none →
        ∀ u ∈ us, ∀ n b, Exports D u.used n b → ¬ Visible u n l) := by
  intro us
  induction us with
  | nil =>
    intro s hN h _
    refine ⟨h, rfl, fun _ _ => rfl, ?_, ?_⟩
    · intro b e
      cases e
    · intro _ u hu
      cases hu
  | cons u us ih =>
    intro s hN h hus
    obtain ⟨hu, hui⟩ := hus u List.mem_cons_self
    have hrest : ∀ u' ∈ us, u' ∈ (D i).uses ∧ u'.used < i :=
      fun u' h' => hus u' (List.mem_cons_of_mem _ h')
    have hci := hc i hi
    unfold lookupImported
    split
    · next hun =>
      obtain ⟨a1, a2, a3, a4, a5⟩ := ih s hN h hrest
      refine ⟨a1, a2, a3, a4, ?_⟩
      intro e u' hu' n b he hv
      rcases List.mem_cons.1 hu' with rfl | hu'
      · obtain ⟨n', h1, _⟩ := unfilter_complete_partial hsp u' n l
          (hci.excluded u' hu) (hci.spelled u' hu l) hv
        rw [hun] at h1
        cases h1
      · exact a5 e u' hu' n b he hv
    · next n hun =>
      rw [if_pos (by omega)]
      obtain ⟨a1, a2, a3, a4⟩ := lookupExported_ok (D := D) o hsp (i := u.used)
        (by omega) (by rw [hN]; exact hc) h n
      dsimp only
      have hvis := unfilter_sound hsp u n l hun
      split
      · next b hb =>
        refine ⟨a1, a2, fun k hk => a3 k (by omega), ?_, ?_⟩
        · intro b' e
          cases e
          exact ⟨u, hu, hui, n, (a4 b).1 hb, hvis⟩
        · intro e
          cases e
      · next hb =>
        obtain ⟨b1, b2, b3, b4, b5⟩ := ih _ (by rw [a2]; exact hN) a1 hrest
        refine ⟨b1, b2.trans a2,
          fun k hk => (b3 k hk).trans (a3 k (by omega)), b4, ?_⟩
        intro e u' hu' n' b he hv
        rcases List.mem_cons.1 hu' with rfl | hu'
        · -- the name looked up is not exported, so it is not a renamed one
          obtain ⟨n₁, h1, hv1, hr1⟩ := unfilter_complete_partial hsp u' n' l
            (hci.excluded u' hu) (hci.spelled u' hu l) hv
          rw [hun] at h1
          cases h1
          have hnot : ∀ b, ¬ Exports D u'.used n b := by
            intro b' hb'
            have := (a4 b').2 hb'
            rw [hb] at this
            cases this
          have hnr : ∀ m, ¬ RenamedTo u' m l := by
            intro m hm
            obtain ⟨b', hb'⟩ := hci.renamed u' hu hui n l (hr1 ⟨m, hm⟩)
            exact hnot b' hb'
          rcases hv.2 with hr | ⟨_, hpre⟩
          · exact hnr _ hr
          · rcases hvis.2 with hr | ⟨_, hpre'⟩
            · exact hnr _ hr
            · have : n = n' := by
                apply Subtype.ext
                exact List.append_cancel_left (hpre'.symm.trans hpre)
              subst this
              exact hnot b he
        · exact b5 e u' hu' n' b he hv

theorem lookupTables_ok {i : Nat} {m : Mod} (hm : InvM D i m) (ht : TabOK D i m)
    (l : Name) (v : Option Binding) (h : lookupTables m l = some v) :
    (∀ b, v = some b → StandsFor D i l b) ∧
      (v = none → ∀ b, ¬ Imported D i l b) := by
  unfold lookupTables at h
  split at h
  · next b hb =>
    cases h
    obtain ⟨rfl, hno⟩ := hm.locals l b hb
    refine ⟨?_, fun e => by cases e⟩
    intro b' e
    cases e
    exact Or.inr ⟨hno, rfl⟩
  · split at h
    · next b hb =>
      cases h
      obtain ⟨t, h1, h2⟩ := Option.bind_eq_some_iff.1 hb
      refine ⟨?_, fun e => by cases e⟩
      intro b' e
      cases e
      exact Or.inl (((ht t h1).2 l b).1 h2).imported
    · cases v with
      | none => exact ⟨fun b e => (by cases e), fun _ => hm.cacheNone l h⟩
      | some b =>
        refine ⟨?_, fun e => by cases e⟩
        intro b' e
        cases e
        exact Or.inl (hm.cacheSome l b h)

theorem lookupName_ok (o : Order) (hsp : Spelling sp) {s : St} {i : Nat}
    (hi : i < s.count) (hc : ∀ j, j < s.count → Clean sp D j) (h : Inv D s)
    (l : Name) :
    Inv D (lookupName o sp s i l).1 ∧
      (lookupName o sp s i l).1.count = s.count ∧
      (∀ b, (lookupName o sp s i l).2 = some b → StandsFor D i l b) ∧
      ((lookupName o sp s i l).2 = none → ∀ b, ¬ Imported D i l b) := by
  obtain ⟨hm, ht⟩ := h.mods i hi
  unfold lookupName
  split
  · next v hv =>
    obtain ⟨a, b⟩ := lookupTables_ok hm ht l v hv
    exact ⟨h, rfl, a, b⟩
  · next hv =>
    dsimp only
    obtain ⟨a1, a2, a3, a4, a5⟩ := lookupImported_ok (D := D) o hsp (i := i) l
      s.count hi hc (s.mods i).uses s rfl h (by
        intro u hu
        rw [hm.uses, List.mem_filter] at hu
        exact ⟨hu.1, by simpa using hu.2⟩)
    have hnone : (lookupImported o sp (s.mods i).uses s l).2 = none →
        ∀ b, ¬ Imported D i l b := by
      rintro e b ⟨u, hu, hui, n, he, hv'⟩
      apply a5 e u _ n b he hv'
      rw [hm.uses, List.mem_filter]
      exact ⟨hu, by simpa using hui⟩
    generalize lookupImported o sp (s.mods i).uses s l = r at a1 a2 a3 a4 hnone
    refine ⟨⟨?_, a1.err⟩, a2, fun b e => Or.inl (a4 b e), hnone⟩
    intro j hj
    have hj' : j < r.1.count := hj
    by_cases hji : j = i
    · subst hji
      rw [upd_self]
      obtain ⟨hm', ht'⟩ := a1.mods j hj'
      refine ⟨⟨hm'.uses, hm'.exported, hm'.locals, hm'.ownLocal, ?_, ?_⟩, ht'⟩
      · intro n b hg
        dsimp only at hg
        rw [get_put] at hg
        split at hg
        · next e =>
          subst e
          exact a4 b (Option.some.inj hg)
        · exact hm'.cacheSome n b hg
      · intro n hg
        dsimp only at hg
        rw [get_put] at hg
        split at hg
        · next e =>
          subst e
          exact hnone (Option.some.inj hg)
        · exact hm'.cacheNone n hg
    · rw [upd_other _ _ hji]
      exact a1.mods j hj'

theorem defineName_ok {s : St} {i : Nat} (h : Inv D s) (l : Name)
    (hno : ∀ b, ¬ Imported D i l b) : Inv D (defineName s i l ⟨i, l⟩) := by
  refine ⟨?_, h.err⟩
  intro j hj
  have hj' : j < s.count := hj
  unfold defineName
  by_cases hji : j = i
  · subst hji
    rw [upd_self]
    obtain ⟨hm, ht⟩ := h.mods j hj'
    refine ⟨⟨hm.uses, hm.exported, ?_, ?_, ?_, ?_⟩, ht⟩
    · intro n b hg
      dsimp only at hg
      rw [get_put] at hg
      split at hg
      · next e =>
        subst e
        cases hg
        exact ⟨rfl, hno⟩
      · exact hm.locals n b hg
    · intro n ho
      dsimp only
      rw [get_put]
      split
      · next e =>
        subst e
        rfl
      · exact hm.ownLocal n ho
    · intro n b hg
      dsimp only at hg
      rw [get_remove] at hg
      split at hg
      · cases hg
      · exact hm.cacheSome n b hg
    · intro n hg
      dsimp only at hg
      rw [get_remove] at hg
      split at hg
      · cases hg
      · exact hm.cacheNone n hg
  · rw [upd_other _ _ hji]
    exact h.mods j hj'

theorem lookupBinding_ok (o : Order) (hsp : Spelling sp) {s : St} {i : Nat}
    (hi : i < s.count) (hc : ∀ j, j < s.count → Clean sp D j) (h : Inv D s)
    (l : Name) :
    Inv D (lookupBinding o sp s i l).1 ∧
      (lookupBinding o sp s i l).1.count = s.count ∧
      StandsFor D i l (lookupBinding o sp s i l).2 := by
  obtain ⟨a1, a2, a3, a4⟩ := lookupName_ok o hsp hi hc h l
  unfold lookupBinding
  dsimp only
  split
  · next b hb => exact ⟨a1, a2, a3 b hb⟩
  · next hb => exact ⟨defineName_ok a1 l (a4 hb), a2, Or.inr ⟨a4 hb, rfl⟩⟩

end Verif.Names
