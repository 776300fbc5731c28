/-
Offsets: where a slot is found, that a primary class fixes the offsets of its slots, and the
compiler's decision about fixed offsets.
-/
import Verif.Slots.Main

namespace Verif.Slots

/-! ### Getters of the words of an instance -/

theorem LayoutOk.xstored {G : Graph} {ls : List Layout} {c : Nat} {l : Layout} {st : Coll}
    {X Y : List Sd} (h : LayoutOk G ls c l st X Y) (s : Sd) : s ∈ X ↔ Stored G c s := by
  refine ⟨fun hs => ?_, h.stored s⟩
  obtain ⟨a, ha, e⟩ := List.mem_filterMap.mp (h.xperm.subset hs)
  obtain ⟨o, d, hd, rfl⟩ := declared_direct.mp ((collect_ok _ h.coll).2.1 a ha)
  exact stored_iff.mpr ⟨o, d, hd, e⟩

theorem LayoutOk.yslot {G : Graph} {ls : List Layout} {c : Nat} {l : Layout} {st : Coll}
    {X Y : List Sd} (h : LayoutOk G ls c l st X Y) (s : Sd) : s ∈ Y ↔ ClassSlot G c s := by
  refine ⟨fun hs => ?_, h.classSlot s⟩
  obtain ⟨a, ha, e⟩ := List.mem_filterMap.mp (h.yperm.subset hs)
  obtain ⟨o, d, hd, rfl⟩ := declared_direct.mp ((collect_ok _ h.coll).2.1 a ha)
  exact classSlot_iff.mpr ⟨o, d, hd, e⟩

theorem LayoutOk.xnodup {G : Graph} {ls : List Layout} {c : Nat} {l : Layout} {st : Coll}
    {X Y : List Sd} (h : LayoutOk G ls c l st X Y) : X.Nodup :=
  h.xperm.nodup_iff.mpr (ipart_nodup (collect_ok _ h.coll).1)

theorem LayoutOk.ynodup {G : Graph} {ls : List Layout} {c : Nat} {l : Layout} {st : Coll}
    {X Y : List Sd} (h : LayoutOk G ls c l st X Y) : Y.Nodup :=
  h.yperm.nodup_iff.mpr (cpart_nodup (collect_ok _ h.coll).1)

theorem getter_inj {st : Coll} (h : CollInv st) {a b : Sd} (ha : a ∈ st.all) (hb : b ∈ st.all)
    (e : a.getter = b.getter) : a = b :=
  List.inj_on_of_nodup_map h.getters ha hb e

theorem LayoutOk.xgetter {G : Graph} {ls : List Layout} {c : Nat} {l : Layout} {st : Coll}
    {X Y : List Sd} (h : LayoutOk G ls c l st X Y) (hz : SizeGettersFresh G c) {s t : Sd}
    (hs : s ∈ X) (ht : t ∈ X) (e : s.getter = t.getter) : s = t := by
  obtain ⟨a, ha, ea⟩ := List.mem_filterMap.mp (h.xperm.subset hs)
  obtain ⟨b, hb, eb⟩ := List.mem_filterMap.mp (h.xperm.subset ht)
  obtain ⟨hI, hsrc, -, -⟩ := collect_ok _ h.coll
  obtain ⟨oa, da, hda, rfl⟩ := declared_direct.mp (hsrc a ha)
  obtain ⟨ob, db, hdb, rfl⟩ := declared_direct.mp (hsrc b hb)
  have key : ∀ {s t : Sd} {oa ob : Nat} {da db : SlotDef} {g : Nat}, Declared G c oa da →
      Declared G c ob db → da.alloc = .inst → db.alloc = .repeated g → ipart (.slot oa da) = some s →
      ipart (.slot ob db) = some t → s.getter ≠ t.getter := by
    intro s t oa ob da db g h1 h2 h3 h4 h5 h6
    simp only [ipart, h3, h4, Option.some.injEq] at h5 h6
    subst h5; subst h6
    exact hz ob db g oa da h2 h4 h1
  cases haa : da.alloc with
  | inst =>
    cases hba : db.alloc with
    | inst =>
      simp only [ipart, haa, hba, Option.some.injEq] at ea eb
      subst ea; subst eb
      exact getter_inj hI ha hb e
    | repeated g => exact absurd e (key hda hdb haa hba ea eb)
    | eachSubclass => simp [ipart, hba] at eb
    | cls => simp [ipart, hba] at eb
    | virt => simp [ipart, hba] at eb
  | repeated g =>
    cases hba : db.alloc with
    | inst => exact absurd e.symm (key hdb hda hba haa eb ea)
    | repeated g' =>
      have := isRep_unique hI ha hb (by simp [isRep, haa]) (by simp [isRep, hba])
      rw [this] at ea
      exact Option.some.inj (ea.symm.trans eb)
    | eachSubclass => simp [ipart, hba] at eb
    | cls => simp [ipart, hba] at eb
    | virt => simp [ipart, hba] at eb
  | eachSubclass => simp [ipart, haa] at ea
  | cls => simp [ipart, haa] at ea
  | virt => simp [ipart, haa] at ea

theorem LayoutOk.ygetter {G : Graph} {ls : List Layout} {c : Nat} {l : Layout} {st : Coll}
    {X Y : List Sd} (h : LayoutOk G ls c l st X Y) {s t : Sd}
    (hs : s ∈ Y) (ht : t ∈ Y) (e : s.getter = t.getter) : s = t := by
  obtain ⟨a, ha, ea⟩ := List.mem_filterMap.mp (h.yperm.subset hs)
  obtain ⟨b, hb, eb⟩ := List.mem_filterMap.mp (h.yperm.subset ht)
  rw [cpart_eq ea, cpart_eq eb] at e ⊢
  exact getter_inj (collect_ok _ h.coll).1 ha hb e

/-! ### The search -/

theorem findOffset_at {s : Sd} : ∀ (X : List Sd) (i j : Nat), X[j]? = some s →
    (∀ t ∈ X, t.getter = s.getter → t = s) → X.Nodup →
    findOffset s.getter (X.map some) i = .ok (some (i + j)) := by
  intro X
  induction X with
  | nil => intro i j h; simp at h
  | cons x X ih =>
    intro i j h hg hn
    have hn' := List.nodup_cons.mp hn
    simp only [List.map_cons, findOffset]
    cases j with
    | zero =>
      simp only [List.getElem?_cons_zero, Option.some.injEq] at h
      subst h
      simp
    | succ j =>
      simp only [List.getElem?_cons_succ] at h
      have hne : x.getter ≠ s.getter := by
        intro e
        have := hg x List.mem_cons_self e
        subst this
        exact hn'.1 (List.mem_of_getElem? h)
      rw [if_neg hne, ih (i + 1) j h (fun t ht => hg t (List.mem_cons_of_mem _ ht)) hn'.2]
      congr 2; omega

theorem findOffset_none {g : Nat} : ∀ (X : List Sd) (i : Nat), (∀ t ∈ X, t.getter ≠ g) →
    findOffset g (X.map some) i = .ok none := by
  intro X
  induction X with
  | nil => intro i _; rfl
  | cons x X ih =>
    intro i h
    simp only [List.map_cons, findOffset, if_neg (h x List.mem_cons_self)]
    exact ih (i + 1) (fun t ht => h t (List.mem_cons_of_mem _ ht))

theorem Stored.alloc_inst {G : Graph} {c : Nat} {s : Sd} (h : Stored G c s) : s.alloc = .inst := by
  obtain ⟨a, d, -, ⟨e, rfl⟩ | ⟨g, -, rfl⟩⟩ := h
  · exact e
  · rfl

theorem LayoutOk.offset {G : Graph} {ls : List Layout} {c : Nat} {l : Layout} {st : Coll}
    {X Y : List Sd} (h : LayoutOk G ls c l st X Y) (hz : SizeGettersFresh G c) {s : Sd} {j : Nat}
    (hj : X[j]? = some s) : slotOffset s l = .ok (some j) := by
  have hm := List.mem_of_getElem? hj
  have := findOffset_at X 0 j hj (fun t ht e => h.xgetter hz ht hm e) h.xnodup
  rw [slotOffset, ((h.xstored s).mp hm).alloc_inst, h.eq]
  simpa using this

theorem ClassSlot.alloc {G : Graph} {c : Nat} {s : Sd} (h : ClassSlot G c s) :
    s.alloc = .cls ∨ s.alloc = .eachSubclass := by
  obtain ⟨a, d, -, e, rfl⟩ := h
  exact e

theorem LayoutOk.coffset {G : Graph} {ls : List Layout} {c : Nat} {l : Layout} {st : Coll}
    {X Y : List Sd} (h : LayoutOk G ls c l st X Y) {s : Sd} {j : Nat}
    (hj : Y[j]? = some s) : slotOffset s l = .ok (some j) := by
  have hm := List.mem_of_getElem? hj
  have := findOffset_at Y 0 j hj (fun t ht e => h.ygetter ht hm e) h.ynodup
  rw [slotOffset, h.eq]
  rcases ((h.yslot s).mp hm).alloc with e | e <;> rw [e] <;> simpa using this

/-! ### Primary classes -/

theorem two_sublist {p q : Nat} {A B : List Nat} (hn : (A ++ p :: B).Nodup) (hq : q ∈ B)
    (hs : [q, p].Sublist (A ++ p :: B)) : False := by
  induction A with
  | nil =>
    simp only [List.nil_append, List.nodup_cons] at hn hs
    cases hs with
    | cons _ h => exact hn.1 (h.subset (by simp))
    | cons_cons _ _ => exact hn.1 hq
  | cons a A ih =>
    simp only [List.cons_append, List.nodup_cons] at hn hs
    cases hs with
    | cons _ h => exact ih hn.2 h
    | cons_cons _ _ => exact hn.1 (by simp [hq])

theorem firstPrimary_cases {G : Graph} {n : Nat} (h : Hier G n) {c q : Nat} (hc : c < n)
    (hq : q ∈ G.cpl c) (hp : G.primary q = true) (hne : q ≠ c) :
    ∃ p, firstPrimary G c = some p ∧ q ∈ G.cpl p := by
  obtain ⟨t, ht⟩ := h.head c hc
  have hqt : q ∈ t := by
    rw [ht] at hq
    rcases List.mem_cons.mp hq with e | hq
    · exact absurd e hne
    · exact hq
  cases hf : firstPrimary G c with
  | none =>
    rw [firstPrimary, ht, List.tail_cons, List.find?_eq_none] at hf
    exact absurd hp (hf q hqt)
  | some p =>
    refine ⟨p, rfl, ?_⟩
    obtain ⟨hm, hpp⟩ := firstPrimary_mem hf
    have hmc := List.mem_of_mem_tail hm
    rcases h.related c hc p hmc q hq hpp hp with hr | hr
    · -- `p` is a superclass of `q`, but comes first
      have hf' := hf
      rw [firstPrimary, ht, List.tail_cons, List.find?_eq_some_iff_append] at hf'
      obtain ⟨-, A, B, e, hA⟩ := hf'
      have hqn : q < n := Nat.lt_of_le_of_lt (h.mem_lt hc hq) hc
      have hpn : p < n := Nat.lt_of_le_of_lt (h.mem_lt hc hmc) hc
      by_cases hpq : q = p
      · subst hpq; exact h.self_mem hqn
      · exfalso
        have hqB : q ∈ B := by
          rw [e] at hqt
          rcases List.mem_append.mp hqt with h1 | h1
          · have := hA q h1; simp [hp] at this
          · rcases List.mem_cons.mp h1 with h1 | h1
            · exact absurd h1 hpq
            · exact h1
        obtain ⟨tq, htq⟩ := h.head q hqn
        have hs1 : [q, p].Sublist (G.cpl q) := by
          rw [htq] at hr ⊢
          rcases List.mem_cons.mp hr with h1 | h1
          · exact absurd h1.symm hpq
          · exact List.Sublist.cons_cons _ (List.singleton_sublist.mpr h1)
        have hs2 := hs1.trans (h.mono c hc q hq)
        have hnd := h.nodup c hc
        rw [ht, e] at hs2 hnd
        exact two_sublist (A := c :: A) hnd hqB hs2
    · exact hr

theorem primary_prefix {G : Graph} {n : Nat} (h : Hier G n) {ls : List Layout}
    (he : layoutAll G n = .ok ls) : ∀ c < n, Tame G c → ∀ q ∈ G.cpl c, G.primary q = true →
      ∃ lq l, ls[q]? = some lq ∧ ls[c]? = some l ∧ lq.ivec <+: l.ivec ∧ lq.cvec <+: l.cvec := by
  intro c
  induction c using Nat.strongRecOn with
  | _ c ih =>
    intro hc ht q hq hp
    obtain ⟨l, st, X, Y, hl, hok⟩ := layout_ok h he c hc ht
    by_cases hne : q = c
    · subst hne
      exact ⟨l, l, hl, hl, List.prefix_rfl, List.prefix_rfl⟩
    · obtain ⟨p, hf, hqp⟩ := firstPrimary_cases h hc hq hp hne
      obtain ⟨lp, Xp, Yp, hlp, e1, e2, hx, hy⟩ := hok.first p hf
      obtain ⟨hm, -⟩ := firstPrimary_mem hf
      have hlt := h.lt c hc p hm
      obtain ⟨lq, lp', hlq, hlp', h1, h2⟩ := ih p hlt (by omega)
        (ht.mono h hc (List.mem_of_mem_tail hm)) q hqp hp
      rw [hlp] at hlp'
      obtain rfl := Option.some.inj hlp'
      refine ⟨lq, l, hlq, hl, h1.trans ?_, h2.trans ?_⟩
      · rw [e1, hok.eq]; exact hx.map _
      · rw [e2, hok.eq]; exact hy.map _

/-! ### Sealed classes -/

/-- The subclasses known to the compiler are those of the graph. -/
structure Known (G : Graph) (S : Subs) (n : Nat) : Prop where
  sound : ∀ c k, k ∈ S.direct c → c < k ∧ k < n ∧ c ∈ G.cpl k
  le : ∀ c k, k < n → c ∈ G.cpl k → c ≤ k
  step : ∀ c k, k < n → c ∈ G.cpl k → c ≠ k → S.known c = true → ∃ m ∈ S.direct c, m ∈ G.cpl k

theorem known_of {w : Class.World} (h : Class.WInv w) {S : Subs} (hS : SubsTrue w S)
    (ab : Nat → Bool) (sl : Nat → List SlotDef) : Known (ofWorld w ab sl) S w.length := by
  have hget : ∀ c < w.length, ∃ r, w[c]? = some r := fun c hc => ⟨_, List.getElem?_eq_getElem hc⟩
  have hier := ofWorld_hier h ab sl
  refine ⟨?_, fun c k hk hc => hier.mem_lt hk hc, ?_⟩
  · intro c k hk
    have hd := hS.sound c k hk
    obtain ⟨r, hr, hs⟩ := hd
    have hkl := (List.getElem?_eq_some_iff.mp hr).1
    have hm := (h.mem_cpl k r hr c).mpr (Relation.ReflTransGen.single ⟨r, hr, hs⟩)
    have hm' : c ∈ (ofWorld w ab sl).cpl k := by rw [ofWorld_cpl h hr]; exact hm
    refine ⟨?_, hkl, hm'⟩
    exact (h.fixed k _ (Class.get_fixeds hr)).super_lt hs
  · intro c k hk hc hne hkn
    obtain ⟨r, hr⟩ := hget k hk
    rw [ofWorld_cpl h hr] at hc
    have hsup := (h.mem_cpl k r hr c).mp hc
    rcases Relation.ReflTransGen.cases_tail hsup with e | ⟨m, hm1, hm2⟩
    · exact absurd e hne
    · refine ⟨m, hS.complete c m hkn hm2, ?_⟩
      rw [ofWorld_cpl h hr]
      exact (h.mem_cpl k r hr m).mpr hm1

/-- A set of classes that contains all direct subclasses of its members. -/
def Closed (S : Subs) (r : List Nat) : Prop := ∀ x ∈ r, S.known x = true ∧ ∀ m ∈ S.direct x, m ∈ r

/-- What a successful search gives. -/
def Found (G : Graph) (n : Nat) (S : Subs) (cs acc r : List Nat) : Prop :=
  acc ⊆ r ∧ (∀ c ∈ cs, c ∈ r) ∧ (∀ x ∈ r, x ∈ acc ∨ ∃ c ∈ cs, c ∈ G.cpl x ∧ x < n) ∧
    (Closed S acc → Closed S r)

theorem addIf_found {G : Graph} {N : Nat} (h : Hier G N) {S : Subs} (hS : Known G S N) :
    ∀ (n : Nat), (∀ c acc r, c < N → addIf S n c acc = some r → Found G N S [c] acc r) ∧
      ∀ cs acc r, (∀ c ∈ cs, c < N) → everyWith (addIf S n) cs acc = some r → Found G N S cs acc r := by
  intro n
  induction n with
  | zero =>
    refine ⟨?_, ?_⟩
    · intro c acc r _ he; simp [addIf] at he
    · intro cs acc r _ he
      cases cs with
      | nil =>
        simp only [everyWith, Option.some.injEq] at he
        subst he
        exact ⟨List.Subset.refl _, by simp, fun x hx => Or.inl hx, id⟩
      | cons c cs => simp [everyWith, addIf] at he
  | succ n ih =>
    obtain ⟨ih1, ih2⟩ := ih
    have one : ∀ c acc r, c < N → addIf S (n + 1) c acc = some r → Found G N S [c] acc r := by
      intro c acc r hc he
      simp only [addIf] at he
      split at he
      · rename_i hk
        split at he
        · rename_i hm
          obtain rfl := Option.some.inj he
          exact ⟨List.Subset.refl _, by simpa using hm, fun x hx => Or.inl hx, id⟩
        · split at he
          · cases he
          · cases h2 : everyWith (addIf S n) (S.direct c) acc with
            | none => rw [h2] at he; cases he
            | some r' =>
              rw [h2] at he
              obtain rfl := Option.some.inj he
              obtain ⟨f1, f2, f3, f4⟩ := ih2 _ acc r' (fun m hm => (hS.sound c m hm).2.1) h2
              refine ⟨fun x hx => List.mem_cons_of_mem _ (f1 hx), by simp, ?_, ?_⟩
              · intro x hx
                rcases List.mem_cons.mp hx with rfl | hx
                · exact Or.inr ⟨x, by simp, h.self_mem hc, hc⟩
                · rcases f3 x hx with h3 | ⟨m, hm, h3, h4⟩
                  · exact Or.inl h3
                  · exact Or.inr ⟨c, by simp, (h.mono x h4 m h3).subset (hS.sound c m hm).2.2, h4⟩
              · intro hcl x hx
                rcases List.mem_cons.mp hx with rfl | hx
                · exact ⟨hk, fun m hm => List.mem_cons_of_mem _ (f2 m hm)⟩
                · exact ⟨(f4 hcl x hx).1, fun m hm => List.mem_cons_of_mem _ ((f4 hcl x hx).2 m hm)⟩
      · cases he
    refine ⟨one, ?_⟩
    intro cs
    induction cs with
    | nil =>
      intro acc r _ he
      simp only [everyWith, Option.some.injEq] at he
      subst he
      exact ⟨List.Subset.refl _, by simp, fun x hx => Or.inl hx, id⟩
    | cons c cs ihc =>
      intro acc r hcs he
      simp only [everyWith] at he
      cases h1 : addIf S (n + 1) c acc with
      | none => rw [h1] at he; cases he
      | some acc' =>
        rw [h1] at he
        obtain ⟨f1, f2, f3, f4⟩ := one c acc acc' (hcs c (by simp)) h1
        obtain ⟨g1, g2, g3, g4⟩ := ihc acc' r (fun x hx => hcs x (by simp [hx])) he
        refine ⟨fun x hx => g1 (f1 hx), ?_, ?_, fun hcl => g4 (f4 hcl)⟩
        · intro x hx
          rcases List.mem_cons.mp hx with rfl | hx
          · exact g1 (f2 x (by simp))
          · exact g2 x hx
        · intro x hx
          rcases g3 x hx with h3 | ⟨m, hm, h3, h4⟩
          · rcases f3 x h3 with h3 | ⟨m, hm, h3, h4⟩
            · exact Or.inl h3
            · exact Or.inr ⟨m, by simp at hm; simp [hm], h3, h4⟩
          · exact Or.inr ⟨m, by simp [hm], h3, h4⟩

theorem closed_all {G : Graph} {N : Nat} {S : Subs} (hS : Known G S N) {r : List Nat}
    (hr : Closed S r) {k : Nat} (hk : k < N) : ∀ (d c : Nat), k - c ≤ d → c ≤ k → c ∈ r → c ∈ G.cpl k → k ∈ r := by
  intro d
  induction d with
  | zero => intro c h1 h2 h3 _; have : c = k := by omega
            subst this; exact h3
  | succ d ih =>
    intro c h1 h2 h3 h4
    by_cases hne : c = k
    · subst hne; exact h3
    · obtain ⟨m, hm1, hm2⟩ := hS.step c k hk h4 hne (hr c h3).1
      have := (hS.sound c m hm1).1
      by_cases hmk : m ≤ k
      · exact ih m (by omega) hmk ((hr c h3).2 m hm1) hm2
      · -- a superclass comes before its subclasses
        exfalso
        obtain ⟨hcm, hmN, -⟩ := hS.sound c m hm1
        exact hmk (hS.le m k hk hm2)

theorem allSubs_mem {G : Graph} {N : Nat} (h : Hier G N) {S : Subs} (hS : Known G S N) {c : Nat}
    (hc : c < N) {n : Nat} {r : List Nat} (he : allSubsIfSealed S n c = some r) :
    (∀ k, k ∈ r ↔ k < N ∧ c ∈ G.cpl k) ∧ ∀ k ∈ r, S.known k = true := by
  obtain ⟨-, f2, f3, f4⟩ := (addIf_found h hS n).1 c [] r hc he
  have hcl := f4 (by intro x hx; cases hx)
  refine ⟨fun k => ⟨fun hk => ?_, fun hk => ?_⟩, fun k hk => (hcl k hk).1⟩
  · rcases f3 k hk with h3 | ⟨m, hm, h3, h4⟩
    · cases h3
    · simp only [List.mem_singleton] at hm
      subst hm
      exact ⟨h4, h3⟩
  · exact closed_all hS hcl hk.1 _ c (Nat.le_refl _) (h.mem_lt hk.1 hk.2) (f2 c (by simp)) hk.2

theorem addIf_succeeds {G : Graph} {N : Nat} (h : Hier G N) {S : Subs} (hS : Known G S N) :
    ∀ (n : Nat), (∀ c acc, c < N → N - c ≤ n → (∀ k < N, c ∈ G.cpl k → S.known k = true) →
        ∃ r, addIf S n c acc = some r) ∧
      ∀ cs acc, (∀ c ∈ cs, c < N ∧ N - c ≤ n ∧ ∀ k < N, c ∈ G.cpl k → S.known k = true) →
        ∃ r, everyWith (addIf S n) cs acc = some r := by
  intro n
  induction n with
  | zero =>
    refine ⟨?_, ?_⟩
    · intro c acc h1 h2; omega
    · intro cs acc hcs
      cases cs with
      | nil => exact ⟨acc, by simp [everyWith]⟩
      | cons c cs => have := hcs c (by simp); omega
  | succ n ih =>
    obtain ⟨-, ih2⟩ := ih
    have one : ∀ c acc, c < N → N - c ≤ n + 1 → (∀ k < N, c ∈ G.cpl k → S.known k = true) →
        ∃ r, addIf S (n + 1) c acc = some r := by
      intro c acc hc hn hk
      simp only [addIf, if_pos (hk c hc (h.self_mem hc))]
      split
      · exact ⟨_, rfl⟩
      · rw [if_neg (fun hm => by have := (hS.sound c c hm).1; omega)]
        obtain ⟨r, hr⟩ := ih2 (S.direct c) acc (by
          intro m hm
          obtain ⟨h1, h2, h3⟩ := hS.sound c m hm
          refine ⟨h2, by omega, ?_⟩
          intro k hkN hmk
          exact hk k hkN ((h.mono k hkN m hmk).subset h3))
        rw [hr]
        exact ⟨_, rfl⟩
    refine ⟨one, ?_⟩
    intro cs
    induction cs with
    | nil => intro acc _; exact ⟨acc, by simp [everyWith]⟩
    | cons c cs ihc =>
      intro acc hcs
      obtain ⟨h1, h2, h3⟩ := hcs c (by simp)
      obtain ⟨r, hr⟩ := one c acc h1 h2 h3
      simp only [everyWith, hr]
      exact ihc r (fun x hx => hcs x (by simp [hx]))

/-! ### Agreement -/

theorem sameOffsets_refl (mine : Vec) : ∀ f, sameOffsets mine f f = true := by
  intro f
  induction f with
  | nil => rfl
  | cons a f ih => simp [sameOffsets, ih]

theorem sameOffsets_get {mine : Vec} : ∀ (f t : Vec) (i : Nat) (a b : Option Sd),
    sameOffsets mine f t = true → f[i]? = some a → t[i]? = some b → a = b ∨ (a ∉ mine ∧ b ∉ mine) := by
  intro f
  induction f with
  | nil => intro t i a b _ h; simp at h
  | cons x f ih =>
    intro t i a b he h1 h2
    cases t with
    | nil => simp at h2
    | cons y t =>
      simp only [sameOffsets, Bool.and_eq_true, Bool.or_eq_true, decide_eq_true_eq,
        Bool.not_eq_eq_eq_not, Bool.not_true, Bool.or_eq_false_iff, decide_eq_false_iff_not] at he
      cases i with
      | zero =>
        simp only [List.getElem?_cons_zero, Option.some.injEq] at h1 h2
        subst h1; subst h2
        exact he.1
      | succ i =>
        simp only [List.getElem?_cons_succ] at h1 h2
        exact ih t i a b he.2 h1 h2

theorem sameOffsets_index {mine f t : Vec} (he : sameOffsets mine f t = true) (hf : f.Nodup)
    (ht : t.Nodup) {v : Option Sd} (hv : v ∈ mine) {i j : Nat} (h1 : f[i]? = some v)
    (h2 : t[j]? = some v) : i = j := by
  have hi := (List.getElem?_eq_some_iff.mp h1).1
  have hj := (List.getElem?_eq_some_iff.mp h2).1
  by_cases hit : i < t.length
  · have h3 : t[i]? = some t[i] := List.getElem?_eq_getElem hit
    rcases sameOffsets_get f t i _ _ he h1 h3 with e | ⟨e, -⟩
    · rw [← e, ← h2] at h3
      exact (List.getElem?_inj hit ht).mp h3
    · exact absurd hv e
  · have hjf : j < f.length := by omega
    have h3 : f[j]? = some f[j] := List.getElem?_eq_getElem hjf
    rcases sameOffsets_get f t j _ _ he h3 h2 with e | ⟨-, e⟩
    · rw [e, ← h1] at h3
      exact ((List.getElem?_inj hjf hf).mp h3).symm
    · exact absurd hv e

theorem subsAgree_some {G : Graph} {ls : List Layout} {mine f : Vec} : ∀ (ss : List Nat),
    subsAgree G ls mine (some f) ss = true → ∀ s ∈ ss, G.abstr s = false →
      ∃ l, ls[s]? = some l ∧ sameOffsets mine f l.ivec = true := by
  intro ss
  induction ss with
  | nil => intro _ s hs; cases hs
  | cons a ss ih =>
    intro he s hs hab
    simp only [subsAgree] at he
    cases hl : ls[a]? with
    | none => rw [hl] at he; cases he
    | some l =>
      rw [hl] at he
      simp only at he
      split at he
      · rename_i ha
        rcases List.mem_cons.mp hs with rfl | hs
        · rw [hab] at ha; cases ha
        · exact ih he s hs hab
      · rw [Bool.and_eq_true] at he
        rcases List.mem_cons.mp hs with rfl | hs
        · exact ⟨l, hl, he.1⟩
        · exact ih he.2 s hs hab

theorem subsAgree_none {G : Graph} {ls : List Layout} {mine : Vec} : ∀ (ss : List Nat),
    subsAgree G ls mine none ss = true → (∀ s ∈ ss, G.abstr s = true) ∨
      ∃ s0 ∈ ss, G.abstr s0 = false ∧ ∃ l0, ls[s0]? = some l0 ∧ ∀ s ∈ ss, G.abstr s = false →
        ∃ l, ls[s]? = some l ∧ sameOffsets mine l0.ivec l.ivec = true := by
  intro ss
  induction ss with
  | nil => intro _; left; simp
  | cons a ss ih =>
    intro he
    simp only [subsAgree] at he
    cases hl : ls[a]? with
    | none => rw [hl] at he; cases he
    | some l =>
      rw [hl] at he
      simp only at he
      split at he
      · rename_i ha
        rcases ih he with h1 | ⟨s0, h1, h2, l0, h3, h4⟩
        · left
          intro s hs
          rcases List.mem_cons.mp hs with rfl | hs
          · exact ha
          · exact h1 s hs
        · right
          refine ⟨s0, List.mem_cons_of_mem _ h1, h2, l0, h3, ?_⟩
          intro s hs hab
          rcases List.mem_cons.mp hs with rfl | hs
          · rw [hab] at ha; cases ha
          · exact h4 s hs hab
      · rename_i ha
        right
        refine ⟨a, List.mem_cons_self, by simpa using ha, l, hl, ?_⟩
        intro s hs hab
        rcases List.mem_cons.mp hs with rfl | hs
        · exact ⟨l, hl, sameOffsets_refl _ _⟩
        · exact subsAgree_some ss he s hs hab

/-- The offset of a slot in a class. -/
def OffsetIn (ls : List Layout) (sd : Sd) (k off : Nat) : Prop :=
  ∃ l, ls[k]? = some l ∧ slotOffset sd l = .ok (some off)

theorem Stored.mono {G : Graph} {n c p : Nat} {s : Sd} (h : Hier G n) (hc : c < n)
    (hp : p ∈ G.cpl c) (hs : Stored G p s) : Stored G c s := by
  obtain ⟨a, d, hd, e⟩ := hs
  exact ⟨a, d, hd.mono h hc hp, e⟩

theorem SizeGettersFresh.mono {G : Graph} {n c p : Nat} (h : Hier G n) (hc : c < n)
    (hp : p ∈ G.cpl c) (hs : SizeGettersFresh G c) : SizeGettersFresh G p :=
  fun a d g a' d' h1 h2 h3 => hs a d g a' d' (h1.mono h hc hp) h2 (h3.mono h hc hp)

theorem offset_exists {G : Graph} {n : Nat} (h : Hier G n) {ls : List Layout}
    (he : layoutAll G n = .ok ls) {c : Nat} (hc : c < n) (ht : Tame G c) (hz : SizeGettersFresh G c)
    {s : Sd} (hs : Stored G c s) : ∃ l j, ls[c]? = some l ∧ l.ivec[j]? = some (some s) ∧ l.ivec.Nodup ∧
      j < l.size ∧ l.size = l.ivec.length ∧ slotOffset s l = .ok (some j) := by
  obtain ⟨l, st, X, Y, hl, hok⟩ := layout_ok h he c hc ht
  obtain ⟨j, hj⟩ := List.getElem?_of_mem ((hok.xstored s).mpr hs)
  have hsz : l.size = X.length := by
    rw [hok.eq, hok.xperm.length_eq]
    exact (collect_ok _ hok.coll).1.icount
  refine ⟨l, j, hl, ?_, ?_, ?_, ?_, hok.offset hz hj⟩
  · rw [hok.eq]; simp [hj]
  · rw [hok.eq]
    exact hok.xnodup.map (fun _ _ e => Option.some.inj e)
  · rw [hsz]; exact (List.getElem?_eq_some_iff.mp hj).1
  · rw [hsz, hok.eq]; simp

theorem fixed_agree {G : Graph} {n : Nat} (h : Hier G n) {S : Subs} (hS : Known G S n)
    {ls : List Layout} (he : layoutAll G n = .ok ls) {f : Nat} {sd : Sd} (hsd : Stored G f sd)
    (hf : haveFixedOffsets G S ls f = true) {c1 c2 : Nat} (h1 : c1 < n) (h2 : c2 < n)
    (m1 : f ∈ G.cpl c1) (m2 : f ∈ G.cpl c2) (T : ∀ c < n, Tame G c)
    (Z : ∀ c < n, SizeGettersFresh G c)
    (hc : G.primary f = true ∨ (G.abstr c1 = false ∧ G.abstr c2 = false)) {off : Nat}
    (ho : OffsetIn ls sd c1 off) : OffsetIn ls sd c2 off := by
  obtain ⟨l1, j1, e1, g1, n1, -, -, o1⟩ := offset_exists h he h1 (T _ h1) (Z _ h1) (hsd.mono h h1 m1)
  obtain ⟨l2, j2, e2, g2, n2, -, -, o2⟩ := offset_exists h he h2 (T _ h2) (Z _ h2) (hsd.mono h h2 m2)
  obtain ⟨l1', e1', o1'⟩ := ho
  rw [e1] at e1'
  obtain rfl := Option.some.inj e1'
  rw [o1] at o1'
  obtain rfl := Option.some.inj (Except.ok.inj o1')
  refine ⟨l2, e2, ?_⟩
  rw [o2]
  congr 2
  have hfn : f < n := Nat.lt_of_le_of_lt (h.mem_lt h1 m1) h1
  obtain ⟨lf, jf, ef, gf, nf, -, -, of⟩ := offset_exists h he hfn (T _ hfn) (Z _ hfn) hsd
  by_cases hp : G.primary f = true
  · have key : ∀ {c : Nat} {l : Layout} {j : Nat}, c < n → Tame G c → f ∈ G.cpl c → ls[c]? = some l →
        l.ivec[j]? = some (some sd) → l.ivec.Nodup → j = jf := by
      intro c l j hcn htc hm hl hj hnd
      obtain ⟨lq, l', q1, q2, q3, -⟩ := primary_prefix h he c hcn htc f hm hp
      rw [ef] at q1
      obtain rfl := Option.some.inj q1
      rw [hl] at q2
      obtain rfl := Option.some.inj q2
      have hlt := (List.getElem?_eq_some_iff.mp gf).1
      have : l.ivec[jf]? = some (some sd) := by
        obtain ⟨t, et⟩ := q3
        rw [← et, List.getElem?_append_left hlt]; exact gf
      rw [← this] at hj
      exact ((List.getElem?_inj (List.getElem?_eq_some_iff.mp this).1 hnd).mp hj.symm).symm
    rw [key h1 (T _ h1) m1 e1 g1 n1, key h2 (T _ h2) m2 e2 g2 n2]
  · obtain ⟨a1, a2⟩ : G.abstr c1 = false ∧ G.abstr c2 = false := by
      rcases hc with hc | hc
      · exact absurd hc hp
      · exact hc
    simp only [haveFixedOffsets, if_neg hp, ef] at hf
    cases hs : allSubsIfSealed S ls.length f with
    | none => rw [hs] at hf; cases hf
    | some subs =>
      rw [hs] at hf
      obtain ⟨hm, -⟩ := allSubs_mem h hS hfn hs
      rcases subsAgree_none subs hf with h3 | ⟨s0, h3, h4, l0, h5, h6⟩
      · have := h3 c1 ((hm c1).mpr ⟨h1, m1⟩)
        rw [a1] at this; cases this
      · obtain ⟨l1', x1, y1⟩ := h6 c1 ((hm c1).mpr ⟨h1, m1⟩) a1
        obtain ⟨l2', x2, y2⟩ := h6 c2 ((hm c2).mpr ⟨h2, m2⟩) a2
        rw [e1] at x1
        obtain rfl := Option.some.inj x1
        rw [e2] at x2
        obtain rfl := Option.some.inj x2
        have hmine : some sd ∈ lf.ivec := List.mem_of_getElem? gf
        obtain ⟨hs0, hs0m⟩ := (hm s0).mp h3
        obtain ⟨l0', j0, e0, g0, n0, -, -, -⟩ := offset_exists h he hs0 (T _ hs0) (Z _ hs0)
          (hsd.mono h hs0 hs0m)
        rw [h5] at e0
        obtain rfl := Option.some.inj e0
        rw [← sameOffsets_index y1 n0 n1 hmine g0 g1, ← sameOffsets_index y2 n0 n2 hmine g0 g2]

theorem haveFixed_known {G : Graph} {n : Nat} (h : Hier G n) {S : Subs} (hS : Known G S n)
    {ls : List Layout} {f : Nat} (hf : haveFixedOffsets G S ls f = true) (hfn : f < n)
    (hp : G.primary f = false) : ∀ k < n, f ∈ G.cpl k → S.known k = true := by
  simp only [haveFixedOffsets, hp, Bool.false_eq_true, if_false] at hf
  cases hl : ls[f]? with
  | none => rw [hl] at hf; cases hf
  | some l =>
    rw [hl] at hf
    simp only at hf
    cases hs : allSubsIfSealed S ls.length f with
    | none => rw [hs] at hf; cases hf
    | some subs =>
      obtain ⟨hm, hk⟩ := allSubs_mem h hS hfn hs
      exact fun k hkn hfk => hk k ((hm k).mpr ⟨hkn, hfk⟩)

theorem fixedOffsetIn_ok {G : Graph} {n : Nat} (h : Hier G n) {S : Subs} (hS : Known G S n)
    {ls : List Layout} (he : layoutAll G n = .ok ls) (T : ∀ c < n, Tame G c)
    (Z : ∀ c < n, SizeGettersFresh G c) {c : Nat} (hc : c < n) {sd : Sd}
    (ho : Stored G sd.owner sd) (hoc : sd.owner ∈ G.cpl c) {off : Nat}
    (hf : fixedOffsetIn G S ls sd c = some off) {k : Nat} (hk : k < n) (hck : c ∈ G.cpl k)
    (hka : G.abstr k = false) : OffsetIn ls sd k off := by
  have hlen : ls.length = n := (layoutAll_get n ls he).1
  simp only [fixedOffsetIn] at hf
  split at hf
  case isFalse => cases hf
  rename_i hfix
  obtain ⟨f, hff, hfc, hof⟩ : ∃ f, haveFixedOffsets G S ls f = true ∧ f ∈ G.cpl c ∧ sd.owner ∈ G.cpl f := by
    have hon : sd.owner < n := Nat.lt_of_le_of_lt (h.mem_lt hc hoc) hc
    simp only [offsetFixedIn, Bool.or_eq_true, Bool.and_eq_true, decide_eq_true_eq,
      Option.any_eq_true] at hfix
    rcases hfix with h1 | ⟨-, h1 | ⟨f, h1, h2⟩⟩
    · exact ⟨sd.owner, h1, hoc, h.self_mem hon⟩
    · exact ⟨c, h1, h.self_mem hc, hoc⟩
    · exact ⟨f, by simpa using List.find?_some h1, List.mem_of_find?_eq_some h1, h2⟩
  have hfn : f < n := Nat.lt_of_le_of_lt (h.mem_lt hc hfc) hc
  have hsf : Stored G f sd := ho.mono h hfn hof
  have hfk : f ∈ G.cpl k := (h.mono k hk c hck).subset hfc
  -- the class whose layout is asked
  obtain ⟨q, hq, hqn, hcq, hqa⟩ : ∃ q, fixedOffsetClass G S ls.length c = q ∧ q < n ∧ c ∈ G.cpl q ∧
      (G.primary f = true ∨ G.abstr q = false) := by
    simp only [fixedOffsetClass]
    by_cases hca : G.abstr c = true
    · rw [if_pos hca]
      cases hs : allSubsIfSealed S ls.length c with
      | none =>
        refine ⟨c, rfl, hc, h.self_mem hc, ?_⟩
        by_contra hn
        rw [not_or] at hn
        have hkn := haveFixed_known h hS hff hfn (by simpa using hn.1)
        obtain ⟨r, hr⟩ := (addIf_succeeds h hS ls.length).1 c [] hc (by omega)
          (fun k hk hck => hkn k hk ((h.mono k hk c hck).subset hfc))
        rw [allSubsIfSealed] at hs
        rw [hs] at hr; cases hr
      | some subs =>
        obtain ⟨hm, -⟩ := allSubs_mem h hS hc hs
        simp only
        cases hfcc : firstConcrete G subs with
        | none =>
          exfalso
          rw [firstConcrete, List.find?_eq_none] at hfcc
          have := hfcc k ((hm k).mpr ⟨hk, hck⟩)
          simp [hka] at this
        | some q =>
          obtain ⟨h1, h2⟩ := (hm q).mp (List.mem_of_find?_eq_some hfcc)
          refine ⟨q, rfl, h1, h2, Or.inr ?_⟩
          simpa using List.find?_some hfcc
    · rw [if_neg hca]
      exact ⟨c, rfl, hc, h.self_mem hc, Or.inr (by simpa using hca)⟩
  rw [hq] at hf
  have hoq : OffsetIn ls sd q off := by
    cases hl : ls[q]? with
    | none => rw [hl] at hf; cases hf
    | some l =>
      rw [hl] at hf
      simp only at hf
      cases hso : slotOffset sd l with
      | error e => rw [hso] at hf; cases hf
      | ok o =>
        rw [hso] at hf
        simp only at hf
        subst hf
        exact ⟨l, hl, hso⟩
  exact fixed_agree h hS he hsf hff hqn hk ((h.mono q hqn c hcq).subset hfc) hfk T Z
    (hqa.imp id (fun e => ⟨e, hka⟩)) hoq

end Verif.Slots
