/-
Preservation of the invariant by compiling and loading a library.
-/
import Verif.Class.World

namespace Verif.Class

/-! ### Positions at compile time -/

theorem mem_addPositionSorted {p x : Nat} {l : List Nat} :
    x ∈ addPositionSorted p l ↔ x = p ∨ x ∈ l := by
  induction l with
  | nil => simp [addPositionSorted]
  | cons e es ih =>
    simp only [addPositionSorted]
    split
    · next h => subst h; simp
    · split
      · simp only [List.mem_cons, ih]; tauto
      · simp

theorem addPositionSorted_sorted {p : Nat} {l : List Nat} (hs : l.Pairwise (· < ·)) :
    (addPositionSorted p l).Pairwise (· < ·) := by
  induction l with
  | nil => simp [addPositionSorted]
  | cons e es ih =>
    obtain ⟨h1, h2⟩ := List.pairwise_cons.mp hs
    simp only [addPositionSorted]
    split
    · exact hs
    · split
      · next hgt =>
        refine List.pairwise_cons.mpr ⟨fun x hx => ?_, ih h2⟩
        rcases mem_addPositionSorted.mp hx with rfl | hx
        · exact hgt
        · exact h1 x hx
      · next hne hge =>
        have hep : p < e := by omega
        refine List.pairwise_cons.mpr ⟨fun x hx => ?_, hs⟩
        rcases List.mem_cons.mp hx with rfl | hx
        · exact hep
        · exact Nat.lt_trans hep (h1 x hx)

/-- What is known of the compiled class of the library being compiled. -/
structure LocalOk (r : Cls) : Prop where
  others : r.others = []
  joint : r.joint = []
  sorted : r.stat.Pairwise (· < ·)
  above : ∀ p ∈ r.stat, r.fx.pos < p

/-- Positions are only added to classes of the library. -/
def StatExt (lib : Nat) (w w' : World) : Prop :=
  fixeds w' = fixeds w ∧ (∀ k : Nat, k < lib → w'[k]? = w[k]?) ∧
  ∀ (k : Nat) (r' : Cls), w'[k]? = some r' → ∃ r, w[k]? = some r ∧ r'.fx = r.fx ∧ (∀ p ∈ r.stat, p ∈ r'.stat) ∧
    (LocalOk r → LocalOk r')

theorem StatExt.refl (lib : Nat) (w : World) : StatExt lib w w :=
  ⟨rfl, fun _ _ => rfl, fun _ r h => ⟨r, h, rfl, fun _ h => h, id⟩⟩

theorem StatExt.trans {lib : Nat} {a b c : World} (h1 : StatExt lib a b) (h2 : StatExt lib b c) :
    StatExt lib a c := by
  refine ⟨h2.1.trans h1.1, fun k hk => (h2.2.1 k hk).trans (h1.2.1 k hk), fun k r hr => ?_⟩
  obtain ⟨r1, hr1, e1, o1, g1⟩ := h2.2.2 k r hr
  obtain ⟨r2, hr2, e2, o2, g2⟩ := h1.2.2 k r1 hr1
  exact ⟨r2, hr2, e1.trans e2, fun p hp => o1 p (o2 p hp), fun g => g1 (g2 g)⟩

theorem augmentStat_ok {r : Cls} {p : Nat} (hp : r.fx.pos ≤ p) :
    (augmentStat p r).fx = r.fx ∧ (∀ q ∈ r.stat, q ∈ (augmentStat p r).stat) ∧
    (LocalOk r → LocalOk (augmentStat p r)) ∧
    (p = (augmentStat p r).fx.pos ∨ p ∈ (augmentStat p r).stat) := by
  unfold augmentStat
  split
  · next e => exact ⟨rfl, fun _ h => h, id, Or.inl e⟩
  · next e =>
    refine ⟨rfl, fun q hq => mem_addPositionSorted.mpr (Or.inr hq), fun g => ?_,
      Or.inr (mem_addPositionSorted.mpr (Or.inl rfl))⟩
    refine ⟨g.others, g.joint, addPositionSorted_sorted g.sorted, fun q hq => ?_⟩
    rcases mem_addPositionSorted.mp hq with rfl | hq
    · simp only; omega
    · exact g.above q hq

theorem modify_statExt {lib : Nat} {w : World} {s p : Nat} {r : Cls} (hl : lib ≤ s)
    (hr : w[s]? = some r) (hp : r.fx.pos ≤ p) :
    StatExt lib w (w.modify s (augmentStat p)) ∧
    ∀ r', (w.modify s (augmentStat p))[s]? = some r' → p = r'.fx.pos ∨ p ∈ r'.stat := by
  obtain ⟨h1, h2, h3, h4⟩ := augmentStat_ok hp
  refine ⟨⟨?_, fun k hk => ?_, fun k r' hr' => ?_⟩, fun r' hr' => ?_⟩
  · apply List.ext_getElem?
    intro i
    simp only [fixeds, List.getElem?_map, List.getElem?_modify]
    by_cases e : s = i
    · subst e
      simp [hr, h1]
    · simp [e]
  · rw [List.getElem?_modify]
    have : s ≠ k := by omega
    simp [this]
  · rw [List.getElem?_modify] at hr'
    by_cases e : s = k
    · subst e
      simp only [if_pos, hr, Option.map_eq_map, Option.map_some, Option.some.injEq] at hr'
      subst hr'
      exact ⟨r, hr, h1, h2, h3⟩
    · simp only [if_neg e, Option.map_id_fun', id] at hr'
      exact ⟨r', by simpa using hr', rfl, fun _ h => h, id⟩
  · rw [List.getElem?_modify] at hr'
    simp only [if_pos, hr, Option.map_eq_map, Option.map_some, Option.some.injEq] at hr'
    subst hr'
    exact h4

theorem setupRcpl_ok {lib : Nat} {f : Fixed} : ∀ (n : Nat) (w : World),
    (∀ p, 0 < p → p ≤ n → ∃ s r, f.rcpl[p]? = some (some s) ∧ w[s]? = some r ∧ r.fx.pos ≤ p) →
    ∃ w', setupRcpl lib f.rcpl n w = .ok w' ∧ StatExt lib w w' ∧
      ∀ p s r', 0 < p → p ≤ n → f.rcpl[p]? = some (some s) → lib ≤ s → w'[s]? = some r' →
        p = r'.fx.pos ∨ p ∈ r'.stat := by
  intro n
  induction n with
  | zero =>
    intro w _
    exact ⟨w, rfl, StatExt.refl lib w, fun p s r' h1 h2 => absurd h1 (by omega)⟩
  | succ n ih =>
    intro w hw
    obtain ⟨s, r, hs, hr, hp⟩ := hw (n + 1) (by omega) (Nat.le_refl _)
    simp only [setupRcpl, hs]
    by_cases hsc : lib ≤ s
    · rw [if_pos hsc]
      obtain ⟨hx1, hk1⟩ := modify_statExt hsc hr hp
      generalize w.modify s (augmentStat (n + 1)) = w1 at hx1 hk1
      obtain ⟨w', he, hx, hk⟩ := ih w1 (fun p h1 h2 => by
        obtain ⟨s', r', hs', hr', hp'⟩ := hw p h1 (by omega)
        have h9 : (fixeds w1)[s']? = some r'.fx := by rw [hx1.1]; exact get_fixeds hr'
        obtain ⟨r2, hr2, e2⟩ := get_of_fixeds h9
        exact ⟨s', r2, hs', hr2, by rw [e2]; exact hp'⟩)
      refine ⟨w', he, hx1.trans hx, fun p s' r' h1 h2 h3 h4 h6 => ?_⟩
      rcases Nat.lt_or_eq_of_le h2 with h2 | rfl
      · exact hk p s' r' h1 (by omega) h3 h4 h6
      · rw [hs] at h3
        cases h3
        obtain ⟨r1, hr1, e1, o1, -⟩ := hx.2.2 _ _ h6
        rcases hk1 r1 hr1 with h7 | h7
        · exact Or.inl (by rw [e1]; exact h7)
        · exact Or.inr (o1 _ h7)
    · rw [if_neg hsc]
      obtain ⟨w', he, hx, hk⟩ := ih w (fun p h1 h2 => hw p h1 (by omega))
      refine ⟨w', he, hx, fun p s' r' h1 h2 h3 h4 h6 => ?_⟩
      rcases Nat.lt_or_eq_of_le h2 with h2 | rfl
      · exact hk p s' r' h1 (by omega) h3 h4 h6
      · rw [hs] at h3
        cases h3
        exact absurd h4 hsc

/-! ### Primary classes at compile time -/

theorem statSubtype_eq {w : World} (h : FInv (fixeds w)) {a b : Nat} {r : Cls}
    (ha : w[a]? = some r) : statSubtype w a b = decide (b ∈ r.fx.cpl) := by
  simp only [statSubtype, all_eq h ha]

/-- The leftmost primary class is a subclass of the other primary ones. -/
theorem leastPrimary_le {w : World} (h : FInv (fixeds w)) {s : Nat} {r : Cls} (hs : w[s]? = some r)
    {a : Nat} {ra : Cls} (ha : a ∈ r.fx.cpl) (hra : w[a]? = some ra) (hp : ra.fx.primary = true) :
    ∃ f rf, leastPrimary w r.fx.cpl = some f ∧ w[f]? = some rf ∧ a ∈ rf.fx.cpl := by
  cases hf : leastPrimary w r.fx.cpl with
  | none =>
    exfalso
    have := List.find?_eq_none.mp hf a ha
    simp [hra, hp] at this
  | some f =>
    obtain ⟨hpf, as, bs, he, hno⟩ := List.find?_eq_some_iff_append.mp hf
    obtain ⟨gf, hgf, hsub⟩ := h.trans s r.fx (get_fixeds hs) f (by rw [he]; simp)
    obtain ⟨rf, hrf, rfl⟩ := get_of_fixeds hgf
    refine ⟨f, rf, rfl, hrf, ?_⟩
    have hpf' : rf.fx.primary = true := by simpa [hrf] using hpf
    have hfm : f ∈ r.fx.cpl := by rw [he]; simp
    rcases (h s r.fx (get_fixeds hs)).prim a ha f hfm ra.fx rf.fx (get_fixeds hra) (get_fixeds hrf)
      hp hpf' with h1 | h1
    · by_cases e : a = f
      · subst e
        exact (h a _ (get_fixeds hrf)).self_mem
      · exfalso
        -- `a` comes before `f`
        obtain ⟨ga, hga, hsuba⟩ := h.trans s r.fx (get_fixeds hs) a ha
        rw [get_fixeds hra] at hga
        cases hga
        obtain ⟨M, hM, -⟩ := (h a ra.fx (get_fixeds hra)).head
        rw [hM] at h1 hsuba
        have h2 : f ∈ M := by
          rcases List.mem_cons.mp h1 with h3 | h3
          · exact absurd h3.symm e
          · exact h3
        have h3 : [a, f].Sublist r.fx.cpl :=
          ((List.singleton_sublist.mpr h2).cons_cons a).trans hsuba
        have hn := (h s r.fx (get_fixeds hs)).nodup
        rw [he] at h3 hn
        have h4 := hno a (before_mem as f bs a hn h3)
        simp [hra, hp] at h4
    · exact h1

theorem pairwiseRelated_spec {w : World} : ∀ (l : List Nat), pairwiseRelated w l = true →
    ∀ a ∈ l, ∀ b ∈ l, a = b ∨ statSubtype w a b = true ∨ statSubtype w b a = true := by
  intro l
  induction l with
  | nil => intro _ a ha; simp at ha
  | cons x l ih =>
    intro h a ha b hb
    simp only [pairwiseRelated, Bool.and_eq_true, List.all_eq_true, Bool.or_eq_true] at h
    rcases List.mem_cons.mp ha with rfl | ha
    · rcases List.mem_cons.mp hb with rfl | hb
      · exact Or.inl rfl
      · exact Or.inr (h.1 b hb).symm
    · rcases List.mem_cons.mp hb with rfl | hb
      · exact Or.inr (h.1 a (by assumption))
      · exact ih h.2 a ha b hb

theorem pairwise_related {w : World} (h : FInv (fixeds w)) {sups : List Nat}
    {cpls : List (List Nat)} (hc : CplsOf (fixeds w) sups cpls) {M : List Nat}
    (hM : Merged (cpls ++ [sups]) M)
    (hp : pairwiseRelated w (cpls.filterMap (leastPrimary w)) = true) :
    ∀ a ∈ M, ∀ b ∈ M, ∀ ga gb : Fixed,
    (fixeds w)[a]? = some ga → (fixeds w)[b]? = some gb → ga.primary = true →
    gb.primary = true → b ∈ ga.cpl ∨ a ∈ gb.cpl := by
  intro a ha b hb ga gb hga hgb pa pb
  obtain ⟨ra, hra, rfl⟩ := get_of_fixeds hga
  obtain ⟨rb, hrb, rfl⟩ := get_of_fixeds hgb
  have key : ∀ x ∈ M, ∀ rx, w[x]? = some rx → rx.fx.primary = true →
      ∃ f rf, f ∈ cpls.filterMap (leastPrimary w) ∧ w[f]? = some rf ∧ x ∈ rf.fx.cpl := by
    intro x hx rx hrx px
    have : ∃ (s : Nat) (rs : Cls), w[s]? = some rs ∧ rs.fx.cpl ∈ cpls ∧ x ∈ rs.fx.cpl := by
      obtain ⟨l, hl, hxl⟩ := hM.src x hx
      rcases List.mem_append.mp hl with hl | hl
      · obtain ⟨s, hs, g, hg, rfl⟩ := hc.of_mem.2 l hl
        obtain ⟨rs, hrs, rfl⟩ := get_of_fixeds hg
        exact ⟨s, rs, hrs, hl, hxl⟩
      · rw [List.mem_singleton] at hl
        subst hl
        obtain ⟨g, hg, hmem⟩ := hc.of_mem.1 x hxl
        obtain ⟨rs, hrs, rfl⟩ := get_of_fixeds hg
        exact ⟨x, rs, hrs, hmem, (h x _ (get_fixeds hrs)).self_mem⟩
    obtain ⟨s, rs, hrs, hmem, hxs⟩ := this
    obtain ⟨f, rf, hlp, hrf, hxf⟩ := leastPrimary_le h hrs hxs hrx px
    exact ⟨f, rf, List.mem_filterMap.mpr ⟨_, hmem, hlp⟩, hrf, hxf⟩
  obtain ⟨f1, r1, hf1, hr1, ha1⟩ := key a ha ra hra pa
  obtain ⟨f2, r2, hf2, hr2, hb2⟩ := key b hb rb hrb pb
  have fin : ∀ (f : Nat) (rf : Cls), w[f]? = some rf → a ∈ rf.fx.cpl → b ∈ rf.fx.cpl →
      b ∈ ra.fx.cpl ∨ a ∈ rb.fx.cpl := fun f rf hf h1 h2 =>
    (h f rf.fx (get_fixeds hf)).prim a h1 b h2 _ _ hga hgb pa pb
  have up : ∀ (f : Nat) (rf : Cls) (g : Nat) (rg : Cls) (x : Nat), w[f]? = some rf → w[g]? = some rg → g ∈ rf.fx.cpl → x ∈ rg.fx.cpl →
      x ∈ rf.fx.cpl := by
    intro f rf g rg x hf hg hgf hx
    obtain ⟨g2, hg2, hs⟩ := h.trans f rf.fx (get_fixeds hf) g hgf
    rw [get_fixeds hg] at hg2
    cases hg2
    exact hs.subset hx
  rcases pairwiseRelated_spec _ hp f1 hf1 f2 hf2 with rfl | h1 | h1
  · rw [hr1] at hr2
    cases hr2
    exact fin _ _ hr1 ha1 hb2
  · rw [statSubtype_eq h hr1, decide_eq_true_eq] at h1
    exact fin _ _ hr1 ha1 (up _ _ _ _ _ hr1 hr2 h1 hb2)
  · rw [statSubtype_eq h hr2, decide_eq_true_eq] at h1
    exact fin _ _ hr2 (up _ _ _ _ _ hr2 hr1 h1 ha1) hb2

/-! ### Compiling the classes of a library -/

/-- The state while a library is compiled; `w0` is the world before. -/
structure LInv (w0 w : World) : Prop where
  fixed : FInv (fixeds w)
  le : w0.length ≤ w.length
  same : ∀ k, k < w0.length → w[k]? = w0[k]?
  localOk : ∀ k r, w0.length ≤ k → w[k]? = some r → LocalOk r
  known : ∀ k rk p b rb, w[k]? = some rk → rk.fx.rcpl[p]? = some (some b) → w[b]? = some rb →
    w0.length ≤ k → w0.length ≤ b → p = rb.fx.pos ∨ p ∈ rb.stat

theorem compileClass_ok {w0 w : World} (h : LInv w0 w) {d : Def} {w' : World}
    (he : compileClass w0.length w d = .ok w') : LInv w0 w' ∧
    ∃ cpls M, superCpls w d.supers = .ok cpls ∧ Merged (cpls ++ [d.supers]) M ∧
      fixeds w' = fixeds w ++ [newFixed w d (w.length :: M) d.bit] ∧
      mergeC3 (mergeFuel (cpls ++ [d.supers])) [w.length] (cpls ++ [d.supers]) =
        .ok (w.length :: M) := by
  unfold compileClass at he
  cases hs : superCpls w d.supers with
  | error e => simp [hs] at he
  | ok cpls =>
    have hc := superCpls_ok h.fixed _ _ hs
    simp only [hs] at he
    cases hm : mergeC3 (mergeFuel (cpls ++ [d.supers])) [w.length] (cpls ++ [d.supers]) with
    | error e => simp [hm] at he
    | ok cpl =>
      obtain ⟨M, hcplM, hM⟩ := mergeC3_ok _ _ _ _ hm
      simp only [List.reverse_cons, List.reverse_nil, List.nil_append, List.singleton_append] at hcplM
      subst hcplM
      simp only [hm] at he
      split at he
      · next hp =>
        obtain ⟨hF, hcp⟩ := h.fixed.addNew (bit := d.bit) hc hM (pairwise_related h.fixed hc hM hp)
        generalize hfx : newFixed w d (w.length :: M) d.bit = fx at he hF hcp
        have hF1 : FInv (fixeds (w ++ [freshCls fx])) := by
          rw [fixeds_append]; exact hF
        have hself : (fixeds (w ++ [freshCls fx]))[w.length]? = some fx := by
          rw [fixeds_append]
          simp [fixeds, freshCls]
        obtain ⟨w2, he2, hx, hk⟩ := setupRcpl_ok (lib := w0.length) (f := fx) (fx.pos - 1)
          (w ++ [freshCls fx]) (fun p h1 h2 => by
            obtain ⟨s, g, hs', -, hg, hpos⟩ := hF1.rcpl_entry hself (p := p) (by omega)
            obtain ⟨r, hr, rfl⟩ := get_of_fixeds hg
            exact ⟨s, r, hs', hr, hpos⟩)
        rw [he2] at he
        obtain rfl := Except.ok.inj he
        have hlen : w2.length = w.length + 1 := by
          have := congrArg List.length hx.1
          simpa [fixeds] using this
        refine ⟨⟨?_, ?_, ?_, ?_, ?_⟩, cpls, M, rfl, hM, ?_, hm⟩
        · rw [hx.1]; exact hF1
        · have := h.le; omega
        · intro k hk'
          rw [hx.2.1 k hk', List.getElem?_append_left (by have := h.le; omega)]
          exact h.same k hk'
        · intro k r' hk' hr'
          obtain ⟨r, hr, -, -, hg⟩ := hx.2.2 k r' hr'
          apply hg
          rcases get_append_world hr with h1 | ⟨rfl, rfl⟩
          · exact h.localOk k r hk' h1
          · exact ⟨rfl, rfl, by simp [freshCls], by simp [freshCls]⟩
        · intro k rk p b rb hrk hpb hrb hkl hbl
          obtain ⟨rk0, hrk0, ek, -⟩ := hx.2.2 k rk hrk
          obtain ⟨rb0, hrb0, eb, ob, -⟩ := hx.2.2 b rb hrb
          rw [ek] at hpb
          have hle : rb0.fx.pos ≤ p := hF1.pos_le (get_fixeds hrk0) hpb (get_fixeds hrb0)
          rcases get_append_world hrk0 with h1 | ⟨rfl, rfl⟩
          · rcases get_append_world hrb0 with h2 | ⟨rfl, rfl⟩
            · rcases h.known k rk0 p b rb0 h1 hpb h2 hkl hbl with h3 | h3
              · exact Or.inl (by rw [eb]; exact h3)
              · exact Or.inr (ob p h3)
            · exfalso
              have hmem := (h.fixed.mem_rcpl (get_fixeds h1)).mpr ⟨p, hpb⟩
              obtain ⟨g, hg, -⟩ := h.fixed.trans k _ (get_fixeds h1) _ hmem
              have := lt_of_get hg
              simp [fixeds] at this
          · by_cases hbw : b = w.length
            · subst hbw
              left
              have : rb0 = freshCls fx := by
                simpa using hrb0.symm
              rw [eb, this]
              exact hF1.self_pos hself hpb
            · by_cases hp0 : p = 0
              · left; rw [eb]; omega
              · have hpp : p ≤ fx.pos ∧ p ≠ fx.pos := by
                  have h9 := (hF1 _ _ hself).rcpl
                  have h10 := (hF1 _ _ hself).len
                  have hpb' : fx.rcpl[p]? = some (some b) := hpb
                  rw [h9, rcplOf_get] at hpb'
                  have := lt_of_get hpb'
                  rw [List.length_reverse] at this
                  refine ⟨by omega, fun e => hbw ?_⟩
                  obtain ⟨a, t, hat, htl⟩ := reverse_split hpb'
                  rw [hat, List.length_append, List.length_cons] at h10
                  have ha : a = [] := List.length_eq_zero_iff.mp (by omega)
                  subst ha
                  rw [hcp] at hat
                  have := congrArg List.head? hat
                  simpa using this.symm
                exact hk p b rb (by omega) (by omega) hpb hbl hrb
        · rw [hx.1, fixeds_append, hfx]; rfl
      · cases he

theorem compileClasses_ok {w0 : World} : ∀ (ds : List Def) {w w' : World}, LInv w0 w →
    compileClasses w0.length w ds = .ok w' → LInv w0 w' := by
  intro ds
  induction ds with
  | nil =>
    intro w w' h he
    simp only [compileClasses] at he
    cases he
    exact h
  | cons d ds ih =>
    intro w w' h he
    simp only [compileClasses] at he
    cases hc : compileClass w0.length w d with
    | error e => simp [hc] at he
    | ok w1 =>
      simp only [hc] at he
      exact ih (compileClass_ok h hc).1 he

theorem LInv.start {w : World} (h : WInv w) : LInv w w :=
  ⟨h.fixed, Nat.le_refl _, fun _ _ => rfl, fun k r hk hr => absurd (lt_of_get hr) (by omega),
    fun k rk p b rb hrk _ _ hk _ => absurd (lt_of_get hrk) (by omega)⟩

/-! ### The image -/

theorem get_finishAll {lib k : Nat} {w : World} {r' : Cls} (h : (finishAll lib w)[k]? = some r') :
    ∃ r, w[k]? = some r ∧ r' = if lib ≤ k then finishCls r else r := by
  simp only [finishAll, List.getElem?_mapIdx, Option.map_eq_some_iff] at h
  obtain ⟨r, hr, e⟩ := h
  exact ⟨r, hr, e.symm⟩

theorem finishAll_fixeds (lib : Nat) (w : World) : fixeds (finishAll lib w) = fixeds w := by
  apply List.ext_getElem?
  intro i
  simp only [fixeds, finishAll, List.getElem?_map, List.getElem?_mapIdx, Option.map_map]
  cases w[i]? with
  | none => rfl
  | some r =>
    simp only [Option.map_some, Function.comp_apply, Option.some.injEq]
    split <;> rfl

theorem LInv.finish {w0 w : World} (h0 : WInv w0) (h : LInv w0 w) :
    WInvG (fun k b => k < w0.length ∨ w0.length ≤ b) (finishAll w0.length w) := by
  refine ⟨by rw [finishAll_fixeds]; exact h.fixed, ?_, ?_, ?_⟩
  · obtain ⟨r, hr, hp⟩ := h0.zero
    have h1 : w[0]? = some r := by rw [h.same 0 (lt_of_get hr)]; exact hr
    refine ⟨r, ?_, hp⟩
    simp only [finishAll, List.getElem?_mapIdx, h1, Option.map_some]
    have := lt_of_get hr
    rw [if_neg (by omega)]
  · intro k r' hr'
    obtain ⟨r, hr, rfl⟩ := get_finishAll hr'
    by_cases hk : w0.length ≤ k
    · rw [if_pos hk]
      have hl := h.localOk k r hk hr
      exact ⟨hl.sorted, hl.above, Or.inl rfl, fun p hp => hp⟩
    · rw [if_neg hk]
      rw [h.same k (by omega)] at hr
      exact h0.good k r hr
  · intro k rk p b rb hrk hpb hrb hb0 hK
    obtain ⟨rk0, hrk0, ek⟩ := get_finishAll hrk
    obtain ⟨rb0, hrb0, eb⟩ := get_finishAll hrb
    have ekf : rk.fx = rk0.fx := by rw [ek]; split <;> rfl
    rw [ekf] at hpb
    have hble : b ≤ k := (h.fixed k _ (get_fixeds hrk0)).mem_le
      ((h.fixed.mem_rcpl (get_fixeds hrk0)).mpr ⟨p, hpb⟩)
    by_cases hk : k < w0.length
    · have hb : b < w0.length := by omega
      rw [if_neg (by omega)] at eb
      subst eb
      rw [h.same k hk] at hrk0
      rw [h.same b hb] at hrb0
      exact h0.known k rk0 p b rb hrk0 hpb hrb0 hb0 trivial
    · have hb : w0.length ≤ b := by
        rcases hK with h1 | h1
        · exact absurd h1 hk
        · exact h1
      rw [if_pos hb] at eb
      have := h.known k rk0 p b rb0 hrk0 hpb hrb0 (by omega) hb
      rw [eb]
      exact this

/-! ### Positions noted for load time -/

theorem fixupsOf_spec {lib : Nat} {w : World} {sup : Nat} {r : Cls} (hr : w[sup]? = some r)
    (hlt : sup < lib) : ∀ (l : List Nat) (q : Nat) (acc : List Nat), l = [] ∨ l.length = q + 1 →
    acc.Pairwise (· < ·) →
    (fixupsOf lib w sup l q acc).Pairwise (· < ·) ∧
    (∀ x ∈ acc, x ∈ fixupsOf lib w sup l q acc) ∧
    (∀ x ∈ fixupsOf lib w sup l q acc, x ∈ acc ∨
      (x ≠ r.fx.pos ∧ ∃ a t, l = a ++ sup :: t ∧ x = t.length)) ∧
    (∀ a t, l = a ++ sup :: t → 0 < t.length → t.length ≠ r.fx.pos → t.length ∉ r.stat →
      t.length ∈ fixupsOf lib w sup l q acc) := by
  intro l
  induction l with
  | nil =>
    intro q acc _ hs
    simp only [fixupsOf]
    exact ⟨hs, fun x hx => hx, fun x hx => Or.inl hx, fun a t e => by simp at e⟩
  | cons s l ih =>
    intro q acc hq hs
    have hq' : l.length = q := by
      rcases hq with h1 | h1
      · cases h1
      · simpa using h1
    cases q with
    | zero =>
      simp only [fixupsOf]
      refine ⟨hs, fun x hx => hx, fun x hx => Or.inl hx, fun a t e h0 => ?_⟩
      exfalso
      have h1 := congrArg List.length e
      simp only [List.length_cons, List.length_append] at h1
      omega
    | succ p =>
      simp only [fixupsOf]
      generalize hacc : (if s = sup ∧ s < lib then
        match w[s]? with
        | none => acc
        | some r => if p + 1 ≠ r.fx.pos ∧ p + 1 ∉ r.stat then addPositionSorted (p + 1) acc else acc
        else acc) = acc'
      have hlen : l = [] ∨ l.length = p + 1 := Or.inr hq'
      -- the accumulator after this turn
      have hA : acc'.Pairwise (· < ·) ∧ (∀ x ∈ acc, x ∈ acc') ∧
          (∀ x ∈ acc', x ∈ acc ∨ (x = p + 1 ∧ x ≠ r.fx.pos ∧ s = sup)) ∧
          (s = sup → p + 1 ≠ r.fx.pos → p + 1 ∉ r.stat → p + 1 ∈ acc') := by
        by_cases e : s = sup
        · subst e
          rw [if_pos ⟨rfl, hlt⟩, hr] at hacc
          simp only at hacc
          split at hacc
          · next hc =>
            subst hacc
            refine ⟨addPositionSorted_sorted hs, fun x hx => mem_addPositionSorted.mpr (Or.inr hx),
              fun x hx => ?_, fun _ _ _ => mem_addPositionSorted.mpr (Or.inl rfl)⟩
            rcases mem_addPositionSorted.mp hx with h1 | h1
            · exact Or.inr ⟨h1, by rw [h1]; exact hc.1, rfl⟩
            · exact Or.inl h1
          · next hc =>
            subst hacc
            exact ⟨hs, fun x hx => hx, fun x hx => Or.inl hx, fun _ h1 h2 => absurd ⟨h1, h2⟩ hc⟩
        · rw [if_neg (fun h => e h.1)] at hacc
          subst hacc
          exact ⟨hs, fun x hx => hx, fun x hx => Or.inl hx, fun h => absurd h e⟩
      obtain ⟨a1, a2, a3, a4⟩ := hA
      obtain ⟨i1, i2, i3, i4⟩ := ih p acc' hlen a1
      refine ⟨i1, fun x hx => i2 x (a2 x hx), fun x hx => ?_, fun a t e h0 h1 h2 => ?_⟩
      · rcases i3 x hx with h1 | ⟨h1, a, t, h2, h3⟩
        · rcases a3 x h1 with h4 | ⟨h4, h5, h6⟩
          · exact Or.inl h4
          · exact Or.inr ⟨h5, [], l, by simp [h6], by omega⟩
        · exact Or.inr ⟨h1, s :: a, t, by simp [h2], h3⟩
      · cases a with
        | nil =>
          simp only [List.nil_append, List.cons.injEq] at e
          obtain ⟨e1, rfl⟩ := e
          have h9 : l.length = p + 1 := by omega
          rw [h9] at h1 h2 ⊢
          exact i2 _ (a4 e1 h1 h2)
        | cons x a =>
          simp only [List.cons_append, List.cons.injEq] at e
          exact i4 a t e.2 h0 h1 h2

theorem fixups_spec {lib : Nat} {w : World} (h : FInv (fixeds w)) {sup : Nat} {r : Cls}
    (hr : w[sup]? = some r) (hlt : sup < lib) : ∀ (cs : List Nat) (acc : List Nat),
    (∀ c ∈ cs, lib ≤ c ∧ ∃ rc, w[c]? = some rc) →
    acc.Pairwise (· < ·) → (∀ x ∈ acc, r.fx.pos < x) →
    (fixups lib w sup cs acc).Pairwise (· < ·) ∧
    (∀ x ∈ fixups lib w sup cs acc, r.fx.pos < x) ∧
    (∀ x ∈ acc, x ∈ fixups lib w sup cs acc) ∧
    (∀ c ∈ cs, ∀ rc, w[c]? = some rc → ∀ p : Nat, rc.fx.rcpl[p]? = some (some sup) → 0 < p →
      p ≠ r.fx.pos → p ∉ r.stat → p ∈ fixups lib w sup cs acc) := by
  intro cs
  induction cs with
  | nil =>
    intro acc _ hs ha
    simp only [fixups]
    exact ⟨hs, ha, fun x hx => hx, by simp⟩
  | cons c cs ih =>
    intro acc hcs hs ha
    obtain ⟨hlc, rc, hrc⟩ := hcs c List.mem_cons_self
    simp only [fixups, all_eq h hrc]
    have hok := h c rc.fx (get_fixeds hrc)
    obtain ⟨M, hM, hMlt⟩ := hok.head
    have hlen : rc.fx.cpl.tail = [] ∨ rc.fx.cpl.tail.length = rc.fx.cpl.length - 2 + 1 := by
      rw [hM]
      cases M with
      | nil => exact Or.inl rfl
      | cons x M => right; simp
    obtain ⟨f1, f2, f3, f4⟩ := fixupsOf_spec hr hlt rc.fx.cpl.tail (rc.fx.cpl.length - 2) acc hlen hs
    have ha' : ∀ x ∈ fixupsOf lib w sup rc.fx.cpl.tail (rc.fx.cpl.length - 2) acc, r.fx.pos < x := by
      intro x hx
      rcases f3 x hx with h1 | ⟨h1, a, t, h2, h3⟩
      · exact ha x h1
      · have h4 : rc.fx.rcpl[x]? = some (some sup) := by
          rw [hok.rcpl, rcplOf_get]
          rw [hM, List.tail_cons] at h2
          rw [hM, h2]
          simp [List.getElem?_append, h3]
        have := h.pos_le (get_fixeds hrc) h4 (get_fixeds hr)
        omega
    obtain ⟨g1, g2, g3, g4⟩ := ih _ (fun c' hc' => hcs c' (List.mem_cons_of_mem _ hc')) f1 ha'
    refine ⟨g1, g2, fun x hx => g3 x (f2 x hx), fun c' hc' rc' hrc' p hp h0 h1 h2 => ?_⟩
    rcases List.mem_cons.mp hc' with rfl | hc'
    · rw [hrc] at hrc'
      cases hrc'
      apply g3
      rw [hok.rcpl, rcplOf_get] at hp
      obtain ⟨a, t, hat, htl⟩ := reverse_split hp
      rw [hM] at hat
      cases a with
      | nil =>
        exfalso
        have := congrArg List.head? hat
        simp only [List.head?_cons, List.nil_append, Option.some.injEq] at this
        omega
      | cons x a =>
        have h5 : M = a ++ sup :: t := by simpa using congrArg List.tail hat
        rw [← htl] at h0 h1 h2 ⊢
        refine f4 a t ?_ h0 h1 h2
        rw [hM, List.tail_cons, h5]
    · exact g4 c' hc' rc' hrc' p hp h0 h1 h2

/-! ### Augmentation at load time -/

theorem mergePos_spec (base : Nat) : ∀ (old ps : List Nat), old.Pairwise (· < ·) →
    ps.Pairwise (· < ·) → base ∉ ps →
    (mergePos base old ps).Pairwise (· < ·) ∧
    (∀ x, x ∈ mergePos base old ps ↔ x ∈ old ∨ x ∈ ps) ∧
    (mergePos base old ps).length = old.length + (ps.filter (fun p => !decide (p ∈ old))).length := by
  intro old
  induction old with
  | nil =>
    intro ps _ hp _
    simp only [mergePos]
    refine ⟨hp, by simp, ?_⟩
    simp
  | cons o old ih =>
    intro ps ho hp hb
    obtain ⟨ho1, ho2⟩ := List.pairwise_cons.mp ho
    simp only [mergePos]
    induction ps with
    | nil => exact ⟨by simpa [copyBelow] using ho, by simp [copyBelow], by simp [copyBelow]⟩
    | cons p ps ihp =>
      obtain ⟨hp1, hp2⟩ := List.pairwise_cons.mp hp
      simp only [List.mem_cons, not_or] at hb
      simp only [copyBelow]
      by_cases hlt : p < o
      · rw [if_pos hlt, if_neg (fun e => hb.1 e.symm)]
        obtain ⟨i1, i2, i3⟩ := ihp hp2 hb.2
        refine ⟨List.pairwise_cons.mpr ⟨fun x hx => ?_, i1⟩, fun x => ?_, ?_⟩
        · rcases (i2 x).mp hx with h1 | h1
          · rcases List.mem_cons.mp h1 with rfl | h1
            · exact hlt
            · exact Nat.lt_trans hlt (ho1 x h1)
          · exact hp1 x h1
        · simp only [List.mem_cons, i2]; tauto
        · have hpo : p ∉ o :: old := by
            intro h1
            rcases List.mem_cons.mp h1 with rfl | h1
            · omega
            · have := ho1 p h1
              omega
          rw [List.filter_cons_of_pos (by simpa using hpo)]
          simp only [List.length_cons] at i3 ⊢
          omega
      · rw [if_neg hlt]
        have hbig : ∀ x ∈ ps, x ≠ o := fun x hx => by have := hp1 x hx; omega
        have hfil : ps.filter (fun p => !decide (p ∈ o :: old)) =
            ps.filter (fun p => !decide (p ∈ old)) := by
          apply List.filter_congr
          intro x hx
          simp [hbig x hx]
        by_cases e : o = p
        · rw [if_pos e]
          obtain ⟨i1, i2, i3⟩ := ih ps ho2 hp2 hb.2
          refine ⟨List.pairwise_cons.mpr ⟨fun x hx => ?_, i1⟩, fun x => ?_, ?_⟩
          · rcases (i2 x).mp hx with h1 | h1
            · exact ho1 x h1
            · have := hp1 x h1; omega
          · simp only [List.mem_cons, i2]; subst e; tauto
          · rw [List.filter_cons_of_neg (by simp [e]), hfil, List.length_cons, i3, List.length_cons]
            omega
        · rw [if_neg e]
          obtain ⟨i1, i2, i3⟩ := ih (p :: ps) ho2 hp (by simp [hb.1, hb.2])
          refine ⟨List.pairwise_cons.mpr ⟨fun x hx => ?_, i1⟩, fun x => ?_, ?_⟩
          · rcases (i2 x).mp hx with h1 | h1
            · exact ho1 x h1
            · rcases List.mem_cons.mp h1 with rfl | h1
              · omega
              · have := hp1 x h1; omega
          · simp only [List.mem_cons, i2]; tauto
          · have h1 : (p :: ps).filter (fun p => !decide (p ∈ o :: old)) =
                (p :: ps).filter (fun p => !decide (p ∈ old)) := by
              apply List.filter_congr
              intro x hx
              have : x ≠ o := by
                rcases List.mem_cons.mp hx with rfl | hx
                · exact fun e' => e e'.symm
                · exact hbig x hx
              simp [this]
            rw [h1, List.length_cons, i3, List.length_cons]
            omega

theorem augmentMultiple_ok {r : Cls} {k : Nat} {ps : List Nat} (g : Good k r)
    (hs : ps.Pairwise (· < ·)) (ha : ∀ p ∈ ps, r.fx.pos < p) :
    ∃ r', augmentMultiple r ps = .ok r' ∧ r'.fx = r.fx ∧ (∀ q ∈ r.others, q ∈ r'.others) ∧
      r'.stat = r.stat ∧ r'.joint = r.joint ∧ Good k r' ∧ ∀ p ∈ ps, p ∈ r'.others := by
  have hb : r.fx.pos ∉ ps := fun h => absurd (ha _ h) (Nat.lt_irrefl _)
  obtain ⟨h1, h2, h3⟩ := mergePos_spec r.fx.pos r.others ps g.sorted hs hb
  have hcount : countUnknown r ps = (ps.filter (fun p => !decide (p ∈ r.others))).length := by
    unfold countUnknown
    congr 1
    apply List.filter_congr
    intro p hp
    have : p ≠ r.fx.pos := fun e => absurd (ha p hp) (by omega)
    simp [known, this]
  unfold augmentMultiple
  simp only
  split
  · rw [if_neg (by omega), if_neg (by omega)]
    refine ⟨_, rfl, rfl, fun q hq => (h2 q).mpr (Or.inl hq), rfl, rfl, ?_,
      fun p hp => (h2 p).mpr (Or.inr hp)⟩
    refine ⟨h1, fun q hq => ?_, Or.inl rfl, fun q hq => (h2 q).mpr (Or.inl (g.stat q hq))⟩
    rcases (h2 q).mp hq with h4 | h4
    · exact g.above q h4
    · exact ha q h4
  · next hz =>
    refine ⟨r, rfl, rfl, fun _ h => h, rfl, rfl, g, fun p hp => ?_⟩
    have hz' : ps.filter (fun p => !decide (p ∈ r.others)) = [] :=
      List.length_eq_zero_iff.mp (by omega)
    have := List.filter_eq_nil_iff.mp hz' p hp
    simpa using this

theorem applyFixups_ok {fix : Nat → List Nat} : ∀ (n : Nat) (w : World), n ≤ w.length →
    (∀ k r, w[k]? = some r → Good k r) →
    (∀ k r, k < n → w[k]? = some r → (fix k).Pairwise (· < ·) ∧ ∀ p ∈ fix k, r.fx.pos < p) →
    ∃ w', applyFixups fix n w = .ok w' ∧ Ext w w' ∧
      ∀ b r', b < n → w'[b]? = some r' → ∀ p ∈ fix b, p ∈ r'.others := by
  intro n
  induction n with
  | zero =>
    intro w _ _ _
    exact ⟨w, rfl, Ext.refl w, fun b r' hb => absurd hb (by omega)⟩
  | succ n ih =>
    intro w hn hg hf
    obtain ⟨w1, he1, hx1, hk1⟩ := ih w (by omega) hg (fun k r hk => hf k r (by omega))
    have hlt : n < w1.length := by rw [hx1.length]; omega
    obtain ⟨r0, hr0, e0, -, -, -, g0⟩ := hx1.2 n w1[n] (List.getElem?_eq_getElem hlt)
    obtain ⟨hs, ha⟩ := hf n r0 (by omega) hr0
    obtain ⟨r', he2, hfx, ho, hst, hj, hgd, hps⟩ := augmentMultiple_ok (g0 (hg n r0 hr0)) hs
      (fun p hp => by rw [e0]; exact ha p hp)
    simp only [applyFixups, he1, List.getElem?_eq_getElem hlt, he2]
    have hx2 : Ext w1 (w1.set n r') :=
      Ext.set (List.getElem?_eq_getElem hlt) hfx ho hst hj (fun _ => hgd)
    refine ⟨_, rfl, hx1.trans hx2, fun b rb hb hrb p hp => ?_⟩
    by_cases e : b = n
    · subst e
      rw [List.getElem?_set, if_pos rfl, if_pos hlt] at hrb
      cases hrb
      exact hps p hp
    · rw [List.getElem?_set, if_neg (fun h => e h.symm)] at hrb
      exact hk1 b rb (by omega) hrb p hp

/-! ### Joint sets do not disturb the rest -/

/-- Only the joint sets differ. -/
def JointOnly (w w' : World) : Prop :=
  w'.length = w.length ∧ ∀ (k : Nat) (r' : Cls), w'[k]? = some r' → ∃ r, w[k]? = some r ∧ r'.fx = r.fx ∧
    r'.others = r.others ∧ r'.stat = r.stat ∧ r'.iep = r.iep

theorem JointOnly.fixeds_eq {w w' : World} (h : JointOnly w w') : fixeds w' = fixeds w := by
  apply List.ext_getElem?
  intro i
  simp only [fixeds, List.getElem?_map]
  cases h1 : w'[i]? with
  | none =>
    have : w[i]? = none := by
      rw [List.getElem?_eq_none_iff] at h1 ⊢
      rw [← h.1]; exact h1
    simp [this]
  | some r' =>
    obtain ⟨r, hr, e, -⟩ := h.2 i r' h1
    simp [hr, e]

theorem applyJoint_only (lib : Nat) (t : JointTable) : ∀ (n : Nat) (w : World),
    JointOnly w (applyJoint lib t n w) := by
  intro n
  induction n with
  | zero => intro w; exact ⟨rfl, fun k r h => ⟨r, h, rfl, rfl, rfl, rfl⟩⟩
  | succ n ih =>
    intro w
    simp only [applyJoint]
    have h1 := ih w
    generalize applyJoint lib t n w = w1 at h1 ⊢
    refine ⟨by rw [List.length_modify]; exact h1.1, fun k r' hr' => ?_⟩
    rw [List.getElem?_modify] at hr'
    by_cases e : n = k
    · subst e
      simp only [if_pos, Option.map_eq_map, Option.map_eq_some_iff] at hr'
      obtain ⟨r1, hr1, e1⟩ := hr'
      obtain ⟨r, hr, a1, a2, a3, a4⟩ := h1.2 n r1 hr1
      refine ⟨r, hr, ?_⟩
      subst e1
      split
      · exact ⟨a1, a2, a3, a4⟩
      · exact ⟨a1, a2, a3, a4⟩
    · simp only [if_neg e] at hr'
      exact h1.2 k r' (by simpa using hr')

theorem JointOnly.inv {w w' : World} (h : JointOnly w w') (hw : WInv w) : WInv w' := by
  refine ⟨by rw [h.fixeds_eq]; exact hw.fixed, ?_, ?_, ?_⟩
  · obtain ⟨r, hr, hp⟩ := hw.zero
    have hlt : 0 < w'.length := by rw [h.1]; exact lt_of_get hr
    obtain ⟨r2, hr2, e, -⟩ := h.2 0 w'[0] (List.getElem?_eq_getElem hlt)
    rw [hr] at hr2
    cases hr2
    exact ⟨_, List.getElem?_eq_getElem hlt, by rw [e]; exact hp⟩
  · intro k r' hr'
    obtain ⟨r, hr, a1, a2, a3, a4⟩ := h.2 k r' hr'
    have g := hw.good k r hr
    exact ⟨by rw [a2]; exact g.sorted, by rw [a2, a1]; exact g.above, by rw [a4, a1, a2]; exact g.iep,
      by rw [a3, a2]; exact g.stat⟩
  · intro k rk p b rb hrk hpb hrb hb0 hK
    obtain ⟨rk0, hrk0, ek, -⟩ := h.2 k rk hrk
    obtain ⟨rb0, hrb0, eb, ob, -⟩ := h.2 b rb hrb
    rw [ek] at hpb
    rw [eb, ob]
    exact hw.known k rk0 p b rb0 hrk0 hpb hrb0 hb0 hK

/-! ### Loading -/

/-- The classes of the library. -/
def mineOf (lib n : Nat) : List Nat := (List.range (n - lib)).map (lib + ·)

theorem mem_mineOf {lib n k : Nat} : k ∈ mineOf lib n ↔ lib ≤ k ∧ k < n := by
  simp only [mineOf, List.mem_map, List.mem_range]
  constructor
  · rintro ⟨a, ha, rfl⟩
    omega
  · rintro ⟨h1, h2⟩
    exact ⟨k - lib, by omega, by omega⟩

/-- Loading succeeds once the classes have been compiled, and keeps the invariant. -/
theorem load_finish {w w1 : World} (h : WInv w) (h1 : LInv w w1) :
    ∃ w2, applyFixups (fun sup => fixups w.length w1 sup (mineOf w.length w1.length) []) w.length
        (finishAll w.length w1) = .ok w2 ∧ Ext (finishAll w.length w1) w2 ∧ WInv w2 := by
  have hF := h1.finish h
  have hlen : (finishAll w.length w1).length = w1.length := by simp [finishAll]
  have hmine : ∀ c ∈ mineOf w.length w1.length, w.length ≤ c ∧ ∃ rc, w1[c]? = some rc := by
    intro c hc
    obtain ⟨h2, h3⟩ := mem_mineOf.mp hc
    exact ⟨h2, _, List.getElem?_eq_getElem h3⟩
  have hfix : ∀ k r, k < w.length → w1[k]? = some r →
      _ := fun k r hk hr => fixups_spec h1.fixed hr hk (mineOf w.length w1.length) [] hmine
        List.Pairwise.nil (by simp)
  obtain ⟨w2, he2, hx, hk⟩ := applyFixups_ok
    (fix := fun sup => fixups w.length w1 sup (mineOf w.length w1.length) []) w.length
    (finishAll w.length w1) (by rw [hlen]; exact h1.le) hF.good (fun k r hk hr => by
      obtain ⟨r1, hr1, e⟩ := get_finishAll hr
      rw [if_neg (by omega)] at e
      subst e
      have := hfix k r hk hr1
      exact ⟨this.1, this.2.1⟩)
  refine ⟨w2, he2, hx, ?_, ?_, ?_, ?_⟩
  · rw [hx.1]; exact hF.fixed
  · obtain ⟨r, hr, hp⟩ := hF.zero
    obtain ⟨r', hr', e, -⟩ := hx.get hr
    exact ⟨r', hr', by rw [e]; exact hp⟩
  · intro k r' hr'
    obtain ⟨r, hr, -, -, -, -, hg⟩ := hx.2 k r' hr'
    exact hg (hF.good k r hr)
  · intro k rk p b rb hrk hpb hrb hb0 _
    obtain ⟨rk0, hrk0, ek, -⟩ := hx.2 k rk hrk
    obtain ⟨rb0, hrb0, eb, ob, -⟩ := hx.2 b rb hrb
    rw [ek] at hpb
    by_cases hK : k < w.length ∨ w.length ≤ b
    · rcases hF.known k rk0 p b rb0 hrk0 hpb hrb0 hb0 hK with h3 | h3
      · exact Or.inl (by rw [eb]; exact h3)
      · exact Or.inr (ob p h3)
    · have hK' : w.length ≤ k ∧ b < w.length := by omega
      obtain ⟨rk1, hrk1, ek1⟩ := get_finishAll hrk0
      obtain ⟨rb1, hrb1, eb1⟩ := get_finishAll hrb0
      rw [if_neg (by omega)] at eb1
      subst eb1
      have ekf : rk0.fx = rk1.fx := by rw [ek1]; split <;> rfl
      rw [ekf] at hpb
      have hle := h1.fixed.pos_le (get_fixeds hrk1) hpb (get_fixeds hrb1)
      by_cases e1 : p = rb0.fx.pos
      · exact Or.inl (by rw [eb]; exact e1)
      · by_cases e2 : p ∈ rb0.stat
        · exact Or.inr (ob p ((hF.good b rb0 hrb0).stat p e2))
        · right
          have := (hfix b rb0 hK'.2 hrb1).2.2.2 k (mem_mineOf.mpr ⟨hK'.1, lt_of_get hrk1⟩) rk1 hrk1 p
            hpb (by omega) e1 e2
          exact hk b rb hK'.2 hrb p this

theorem loadLibrary_ok {w : World} (h : WInv w) {ds : List Def} {w' : World}
    (he : loadLibrary w ds = .ok w') : WInv w' ∧ ∃ w1 w2, compileClasses w.length w ds = .ok w1 ∧
      LInv w w1 ∧ Ext (finishAll w.length w1) w2 ∧ WInv w2 ∧
      w' = applyJoint w.length
        (jointAll w.length w1 (mineOf w.length w1.length) (fun _ => [])) w2.length w2 := by
  unfold loadLibrary at he
  simp only at he
  cases hc : compileClasses w.length w ds with
  | error e => simp [hc] at he
  | ok w1 =>
    have h1 := compileClasses_ok ds (LInv.start h) hc
    obtain ⟨w2, he2, hx, hi⟩ := load_finish h h1
    simp only [hc] at he
    rw [show (List.range (w1.length - w.length)).map (w.length + ·) = mineOf w.length w1.length from
      rfl, he2] at he
    simp only at he
    cases he
    exact ⟨(applyJoint_only _ _ _ _).inv hi, w1, w2, rfl, h1, hx, hi, rfl⟩

theorem compileClass_error {w0 w : World} (h : LInv w0 w) {d : Def} {e : Err}
    (he : compileClass w0.length w d = .error e) :
    e = .noClass ∨ e = .inconsistent ∨ e = .primaries := by
  unfold compileClass at he
  cases hs : superCpls w d.supers with
  | error e' =>
    simp only [hs] at he
    cases he
    exact Or.inl (superCpls_error h.fixed hs).1
  | ok cpls =>
    have hc := superCpls_ok h.fixed _ _ hs
    simp only [hs] at he
    cases hm : mergeC3 (mergeFuel (cpls ++ [d.supers])) [w.length] (cpls ++ [d.supers]) with
    | error e' =>
      simp only [hm] at he
      cases he
      exact Or.inr (Or.inl (mergeC3_error _ _ _ _ (Nat.le_refl _) hm))
    | ok cpl =>
      obtain ⟨M, hcplM, hM⟩ := mergeC3_ok _ _ _ _ hm
      simp only [List.reverse_cons, List.reverse_nil, List.nil_append, List.singleton_append] at hcplM
      subst hcplM
      simp only [hm] at he
      split at he
      · next hp =>
        exfalso
        obtain ⟨hF, hcp⟩ := h.fixed.addNew (bit := d.bit) hc hM (pairwise_related h.fixed hc hM hp)
        generalize hfx : newFixed w d (w.length :: M) d.bit = fx at he hF hcp
        have hF1 : FInv (fixeds (w ++ [freshCls fx])) := by
          rw [fixeds_append]; exact hF
        have hself : (fixeds (w ++ [freshCls fx]))[w.length]? = some fx := by
          rw [fixeds_append]
          simp [fixeds, freshCls]
        obtain ⟨w2, he2, -⟩ := setupRcpl_ok (lib := w0.length) (f := fx) (fx.pos - 1)
          (w ++ [freshCls fx]) (fun p h1 h2 => by
            obtain ⟨s, g, hs', -, hg, hpos⟩ := hF1.rcpl_entry hself (p := p) (by omega)
            obtain ⟨r, hr, rfl⟩ := get_of_fixeds hg
            exact ⟨s, r, hs', hr, hpos⟩)
        rw [he2] at he
        cases he
      · cases he
        exact Or.inr (Or.inr rfl)

theorem compileClasses_error {w0 : World} : ∀ (ds : List Def) {w : World} {e : Err}, LInv w0 w →
    compileClasses w0.length w ds = .error e → e = .noClass ∨ e = .inconsistent ∨ e = .primaries := by
  intro ds
  induction ds with
  | nil => intro w e h he; simp [compileClasses] at he
  | cons d ds ih =>
    intro w e h he
    simp only [compileClasses] at he
    cases hc : compileClass w0.length w d with
    | error e' =>
      simp only [hc] at he
      cases he
      exact compileClass_error h hc
    | ok w1 =>
      simp only [hc] at he
      exact ih (compileClass_ok h hc).1 he

theorem loadLibrary_error {w : World} (h : WInv w) {ds : List Def} {e : Err}
    (he : loadLibrary w ds = .error e) : e = .noClass ∨ e = .inconsistent ∨ e = .primaries := by
  unfold loadLibrary at he
  simp only at he
  cases hc : compileClasses w.length w ds with
  | error e' =>
    simp only [hc] at he
    cases he
    exact compileClasses_error ds (LInv.start h) hc
  | ok w1 =>
    have h1 := compileClasses_ok ds (LInv.start h) hc
    obtain ⟨w2, he2, hx, hi⟩ := load_finish h h1
    simp only [hc] at he
    rw [show (List.range (w1.length - w.length)).map (w.length + ·) = mineOf w.length w1.length from
      rfl, he2] at he
    simp only at he
    cases he

/-! ### Histories -/

theorem object_inv : WInv objectWorld := by
  have hget : ∀ (k : Nat) (r : Cls), objectWorld[k]? = some r →
      k = 0 ∧ r = ⟨⟨[], false, 0, rcplOf [0], 0, 0⟩, [], [], .object, []⟩ := by
    intro k r h
    match k, h with
    | 0, h => exact ⟨rfl, (Option.some.inj h).symm⟩
    | k + 1, h => simp [objectWorld] at h
  have hcpl : (⟨[], false, 0, rcplOf [0], 0, 0⟩ : Fixed).cpl = [0] := by decide
  refine ⟨?_, ⟨_, rfl, rfl⟩, ?_, ?_⟩
  · intro k f hf
    obtain ⟨r, hr, rfl⟩ := get_of_fixeds hf
    obtain ⟨rfl, rfl⟩ := hget k r hr
    refine ⟨by rw [hcpl], by rw [hcpl]; rfl, ⟨[], hcpl, by simp⟩, by rw [hcpl]; simp, by simp, by simp,
      fun x hx => Or.inl (by rw [hcpl] at hx; simpa using hx), ?_, ?_⟩
    · intro a ha b hb ga gb hga hgb pa pb
      rw [hcpl, List.mem_singleton] at ha hb
      subst ha; subst hb
      obtain ⟨ra, hra, rfl⟩ := get_of_fixeds hga
      obtain ⟨-, rfl⟩ := hget _ ra hra
      cases pa
    · intro i
      simp only [Nat.zero_testBit, Bool.false_eq_true, false_iff]
      rintro ⟨x, hx, g, hg, hb⟩
      obtain ⟨rx, hrx, rfl⟩ := get_of_fixeds hg
      obtain ⟨-, rfl⟩ := hget _ rx hrx
      simp at hb
  · intro k r hr
    obtain ⟨rfl, rfl⟩ := hget k r hr
    exact ⟨by simp, by simp, Or.inr ⟨rfl, rfl⟩, by simp⟩
  · intro k rk p b rb hrk hpb hrb hb0
    obtain ⟨rfl, -⟩ := hget b rb hrb
    exact absurd rfl hb0

theorem step_inv {w : World} (h : WInv w) {op : Op} {w' : World} (he : step w op = .ok w') :
    WInv w' := by
  cases op with
  | make d => exact (makeClass_ok h he).1
  | load ds => exact (loadLibrary_ok h he).1

theorem run_inv : ∀ (ops : List Op) {w : World}, WInv w → WInv (run w ops) := by
  intro ops
  induction ops with
  | nil => intro w h; exact h
  | cons op ops ih =>
    intro w h
    simp only [run]
    cases hs : step w op with
    | ok w' => exact ih (step_inv h hs)
    | error e => exact ih h

theorem reachable_inv {w : World} (h : Reachable w) : WInv w := by
  obtain ⟨ops, rfl⟩ := h
  exact run_inv ops object_inv

end Verif.Class
