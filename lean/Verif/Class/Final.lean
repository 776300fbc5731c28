/-
From the invariant to the vocabulary of the statements.
-/
import Verif.Class.Joint
import Verif.Class.Spec

namespace Verif.Class

theorem WInv.all {w : World} (h : WInv w) {c : Nat} {r : Cls} (hr : w[c]? = some r) :
    allSuperclasses w c = .ok r.fx.cpl := all_eq h.fixed hr

/-- Precedence lists list the superclasses. -/
theorem WInv.mem_cpl {w : World} (h : WInv w) : ∀ (c : Nat) (r : Cls), w[c]? = some r → ∀ x,
    x ∈ r.fx.cpl ↔ Superclass w c x := by
  intro c r hr x
  constructor
  · revert r x
    induction c using Nat.strongRecOn with
    | _ c ih =>
      intro r hr x hx
      have hok := h.fixed c _ (get_fixeds hr)
      rcases hok.src x hx with rfl | ⟨s, hs, g, hg, hxg⟩
      · exact Relation.ReflTransGen.refl
      · obtain ⟨rs, hrs, rfl⟩ := get_of_fixeds hg
        exact Relation.ReflTransGen.head ⟨r, hr, hs⟩ (ih s (hok.super_lt hs) rs hrs x hxg)
  · intro hx
    induction hx with
    | refl => exact (h.fixed c _ (get_fixeds hr)).self_mem
    | @tail b d _ hbd ih =>
      obtain ⟨rb, hrb, hd⟩ := hbd
      obtain ⟨g, hg, hsub⟩ := h.fixed.trans c _ (get_fixeds hr) b ih
      rw [get_fixeds hrb] at hg
      cases hg
      exact hsub.subset ((h.fixed b _ (get_fixeds hrb)).super_mem hd)

theorem superCpls_iff {w : World} (h : FInv (fixeds w)) : ∀ (sups : List Nat)
    (cpls : List (List Nat)), superCpls w sups = .ok cpls ↔ ListsOf w sups cpls := by
  intro sups
  induction sups with
  | nil =>
    intro cpls
    cases cpls <;> simp [superCpls, ListsOf]
  | cons s sups ih =>
    intro cpls
    simp only [superCpls, ListsOf, List.map_cons]
    cases ha : allSuperclasses w s with
    | error e =>
      cases cpls <;> simp
    | ok cpl =>
      simp only
      cases hs : superCpls w sups with
      | error e =>
        simp only [reduceCtorEq, false_iff]
        intro hc
        cases cpls with
        | nil => simp at hc
        | cons a cpls =>
          simp only [List.map_cons, List.cons.injEq] at hc
          have := (ih cpls).mpr hc.2
          rw [hs] at this
          cases this
      | ok l =>
        have hl := (ih l).mp hs
        constructor
        · intro e
          cases e
          simp only [List.map_cons, List.cons.injEq, true_and]
          exact hl
        · intro hc
          cases cpls with
          | nil => simp at hc
          | cons a cpls =>
            simp only [List.map_cons, List.cons.injEq, Except.ok.injEq] at hc
            obtain ⟨rfl, hc⟩ := hc
            have := (ih cpls).mpr hc
            rw [hs] at this
            cases this
            rfl

theorem ListsOf.unique {w : World} {sups : List Nat} {c1 c2 : List (List Nat)}
    (h1 : ListsOf w sups c1) (h2 : ListsOf w sups c2) : c1 = c2 := by
  have h : c1.map (Except.ok (ε := Err)) = c2.map Except.ok := h1.symm.trans h2
  exact (List.map_injective_iff.mpr (fun a b e => by cases e; rfl)) h

/-- A merged list gives an acceptable list. -/
theorem Merged.acceptable {w : World} {sups : List Nat} {cpls : List (List Nat)}
    (h : FInv (fixeds w)) (hc : CplsOf (fixeds w) sups cpls) {M : List Nat}
    (hM : Merged (cpls ++ [sups]) M) : Acceptable w.length sups cpls (w.length :: M) := by
  have hlt : ∀ x ∈ M, x < w.length := by
    intro x hx
    obtain ⟨l, hl, hxl⟩ := hM.src x hx
    have : ∃ (s : Nat) (g : Fixed), (fixeds w)[s]? = some g ∧ x ∈ g.cpl := by
      rcases List.mem_append.mp hl with hl | hl
      · obtain ⟨s, hs, g, hg, rfl⟩ := hc.of_mem.2 l hl
        exact ⟨s, g, hg, hxl⟩
      · rw [List.mem_singleton] at hl
        subst hl
        obtain ⟨g, hg, -⟩ := hc.of_mem.1 x hxl
        exact ⟨x, g, hg, (h x g hg).self_mem⟩
    obtain ⟨s, g, hg, hxg⟩ := this
    have h1 := (h s g hg).mem_le hxg
    have h2 := lt_of_get hg
    simp only [fixeds, List.length_map] at h2
    omega
  refine ⟨rfl, List.nodup_cons.mpr ⟨fun hx => absurd (hlt _ hx) (Nat.lt_irrefl _), hM.nodup⟩,
    (hM.sub _ (by simp)).cons _, fun l hl => (hM.sub l (by simp [hl])).cons _, fun x hx => ?_⟩
  rcases List.mem_cons.mp hx with rfl | hx
  · exact Or.inl rfl
  · obtain ⟨l, hl, hxl⟩ := hM.src x hx
    rcases List.mem_append.mp hl with hl | hl
    · exact Or.inr (Or.inr ⟨l, hl, hxl⟩)
    · rw [List.mem_singleton] at hl
      subst hl
      exact Or.inr (Or.inl hxl)

/-- Members of a merged list are the superclasses of the direct ones. -/
theorem Merged.mem_iff {w : World} (h : WInv w) {sups : List Nat} {cpls : List (List Nat)}
    (hc : CplsOf (fixeds w) sups cpls) {M : List Nat} (hM : Merged (cpls ++ [sups]) M) (x : Nat) :
    x ∈ M ↔ ∃ s ∈ sups, Superclass w s x := by
  constructor
  · intro hx
    obtain ⟨l, hl, hxl⟩ := hM.src x hx
    rcases List.mem_append.mp hl with hl | hl
    · obtain ⟨s, hs, g, hg, rfl⟩ := hc.of_mem.2 l hl
      obtain ⟨rs, hrs, rfl⟩ := get_of_fixeds hg
      exact ⟨s, hs, (h.mem_cpl s rs hrs x).mp hxl⟩
    · rw [List.mem_singleton] at hl
      subst hl
      exact ⟨x, hxl, Relation.ReflTransGen.refl⟩
  · rintro ⟨s, hs, hx⟩
    obtain ⟨g, hg, hmem⟩ := hc.of_mem.1 s hs
    obtain ⟨rs, hrs, rfl⟩ := get_of_fixeds hg
    exact (hM.sub _ (by simp [hmem])).subset ((h.mem_cpl s rs hrs x).mpr hx)

theorem length_fixeds (w : World) : (fixeds w).length = w.length := by simp [fixeds]

theorem superCpls_lt {w : World} (h : FInv (fixeds w)) {sups : List Nat} {cpls : List (List Nat)}
    (hs : superCpls w sups = .ok cpls) : ∀ s ∈ sups, s < w.length := by
  intro s hm
  obtain ⟨g, hg, -⟩ := (superCpls_ok h _ _ hs).of_mem.1 s hm
  have := lt_of_get hg
  rwa [length_fixeds] at this

/-- Two primary classes of a merged list, the first before the second and not below it, are
    unrelated. -/
theorem unrelated {w : World} (h : WInv w) {sups : List Nat} {cpls : List (List Nat)}
    (hc : CplsOf (fixeds w) sups cpls) {M : List Nat} (hM : Merged (cpls ++ [sups]) M) {a b : Nat}
    {ra rb : Cls} (hab : [a, b].Sublist M) (ha : w[a]? = some ra) (hb : w[b]? = some rb)
    (hpa : ra.fx.primary = true) (hpb : rb.fx.primary = true) (hn : b ∉ ra.fx.cpl) :
    ¬ PrimariesRelated w sups := by
  intro hp
  have ham : a ∈ M := hab.subset (by simp)
  have hbm : b ∈ M := hab.subset (by simp)
  obtain ⟨s, hs, hsa⟩ := (hM.mem_iff h hc a).mp ham
  obtain ⟨t, ht, htb⟩ := (hM.mem_iff h hc b).mp hbm
  have hne : a ≠ b := by
    rintro rfl
    rw [ha] at hb
    cases hb
    exact hn (h.fixed a _ (get_fixeds ha)).self_mem
  rcases hp s hs t ht a b hsa htb ⟨ra, ha, hpa⟩ ⟨rb, hb, hpb⟩ with h1 | h1
  · exact hn ((h.mem_cpl a ra ha b).mpr h1)
  · -- then `b` comes before `a`
    have h2 : a ∈ rb.fx.cpl := (h.mem_cpl b rb hb a).mpr h1
    obtain ⟨K, hK, -⟩ := (h.fixed b _ (get_fixeds hb)).head
    rw [hK] at h2
    have h3 : a ∈ K := by
      rcases List.mem_cons.mp h2 with h3 | h3
      · exact absurd h3 hne
      · exact h3
    obtain ⟨g, hg, hmem⟩ := hc.of_mem.1 t ht
    obtain ⟨rt, hrt, rfl⟩ := get_of_fixeds hg
    have hbt := (h.mem_cpl t rt hrt b).mpr htb
    obtain ⟨g2, hg2, hsub⟩ := h.fixed.trans t _ (get_fixeds hrt) b hbt
    rw [get_fixeds hb] at hg2
    cases hg2
    have h4 : [b, a].Sublist M := by
      have := hsub.trans (hM.sub rt.fx.cpl (by simp [hmem]))
      rw [hK] at this
      exact ((List.singleton_sublist.mpr h3).cons_cons b).trans this
    -- both orders in a list without duplicates
    have hnd := hM.nodup
    obtain ⟨u, v, he, -⟩ : ∃ u v, M = u ++ b :: v ∧ True := by
      obtain ⟨u, v, he⟩ := List.append_of_mem hbm
      exact ⟨u, v, he, trivial⟩
    rw [he] at hab h4 hnd
    have hau := before_mem u b v a hnd hab
    obtain ⟨u1, u2, hu⟩ := List.append_of_mem hau
    rw [hu] at hnd h4
    have hnd' : (u1 ++ a :: (u2 ++ b :: v)).Nodup := by simpa using hnd
    have h4' : [b, a].Sublist (u1 ++ a :: (u2 ++ b :: v)) := by simpa using h4
    have hbu1 := before_mem u1 a (u2 ++ b :: v) b hnd' h4'
    have := (List.nodup_append.mp hnd').2.2 b hbu1 b (by simp)
    exact this rfl

theorem related_of_fixed {w : World} (h : WInv w) {sups : List Nat} {cpls : List (List Nat)}
    (hc : CplsOf (fixeds w) sups cpls) {M : List Nat} (hM : Merged (cpls ++ [sups]) M)
    (hp : ∀ a ∈ M, ∀ b ∈ M, ∀ ga gb : Fixed,
      (fixeds w)[a]? = some ga → (fixeds w)[b]? = some gb → ga.primary = true →
      gb.primary = true → b ∈ ga.cpl ∨ a ∈ gb.cpl) : PrimariesRelated w sups := by
  rintro s hs t ht a b hsa htb ⟨ra, hra, pa⟩ ⟨rb, hrb, pb⟩
  rcases hp a ((hM.mem_iff h hc a).mpr ⟨s, hs, hsa⟩) b ((hM.mem_iff h hc b).mpr ⟨t, ht, htb⟩) _ _
    (get_fixeds hra) (get_fixeds hrb) pa pb with h1 | h1
  · exact Or.inl ((h.mem_cpl a ra hra b).mp h1)
  · exact Or.inr ((h.mem_cpl b rb hrb a).mp h1)

/-! ### `<object>` -/

/-- Every class but `<object>` has a direct superclass. -/
def WRooted (w : World) : Prop := ∀ (k : Nat) (r : Cls), w[k]? = some r → k ≠ 0 → r.fx.supers ≠ []

theorem zero_cpl {w : World} (h : WInv w) {r : Cls} (hr : w[0]? = some r) : r.fx.cpl = [0] := by
  obtain ⟨M, hM, hlt⟩ := (h.fixed 0 _ (get_fixeds hr)).head
  cases M with
  | nil => exact hM
  | cons x M => exact absurd (hlt x List.mem_cons_self) (by omega)

theorem zero_mem {w : World} (h : WInv w) (hr : WRooted w) : ∀ (k : Nat) (r : Cls),
    w[k]? = some r → 0 ∈ r.fx.cpl := by
  intro k
  induction k using Nat.strongRecOn with
  | _ k ih =>
    intro r hk
    by_cases e : k = 0
    · subst e
      rw [zero_cpl h hk]
      simp
    · have hne := hr k r hk e
      obtain ⟨s, hs⟩ := List.exists_mem_of_ne_nil _ hne
      have hok := h.fixed k _ (get_fixeds hk)
      obtain ⟨g, hg, hsub⟩ := hok.inh s hs
      obtain ⟨rs, hrs, rfl⟩ := get_of_fixeds hg
      exact hsub.subset (ih s (hok.super_lt hs) rs hrs)

theorem zero_rcpl {w : World} (h : WInv w) (hr : WRooted w) {k : Nat} {r : Cls}
    (hk : w[k]? = some r) : r.fx.rcpl[0]? = some (some 0) := by
  have hok := h.fixed k _ (get_fixeds hk)
  obtain ⟨s, g, hs, hsm, hg, -⟩ := h.fixed.rcpl_entry (get_fixeds hk) (p := 0) (by omega)
  by_cases e : s = 0
  · subst e; exact hs
  · exfalso
    obtain ⟨rs, hrs, rfl⟩ := get_of_fixeds hg
    obtain ⟨K, hK, -⟩ := (h.fixed s _ (get_fixeds hrs)).head
    have h0 := zero_mem h hr s rs hrs
    obtain ⟨g2, hg2, hsub⟩ := h.fixed.trans k _ (get_fixeds hk) s hsm
    rw [get_fixeds hrs] at hg2
    cases hg2
    rw [hK] at h0 hsub
    have h1 : 0 ∈ K := by
      rcases List.mem_cons.mp h0 with h1 | h1
      · exact absurd h1.symm e
      · exact h1
    have h2 : [s, 0].Sublist r.fx.cpl := ((List.singleton_sublist.mpr h1).cons_cons s).trans hsub
    rw [hok.rcpl, rcplOf_get] at hs
    obtain ⟨a, t, hat, htl⟩ := reverse_split hs
    have ht : t = [] := List.length_eq_zero_iff.mp htl
    subst ht
    have hnd := hok.nodup
    rw [hat] at h2 hnd
    have hrev := List.reverse_sublist.mpr h2
    simp only [List.reverse_cons, List.reverse_nil, List.nil_append, List.singleton_append,
      List.reverse_append] at hrev
    -- `[0, s]` in `s :: reverse a` with `s` not in `a`
    have hsa : s ∉ a := by
      intro hc
      exact (List.nodup_append.mp hnd).2.2 s hc s (by simp) rfl
    cases hrev with
    | cons _ h3 => exact hsa (by simpa using h3.subset (show s ∈ [0, s] by simp))
    | cons_cons _ h3 => exact e rfl

/-- The second answer of the subclass test on `<object>`. -/
theorem subclass_zero {w : World} (h : WInv w) (hr : WRooted w) {k : Nat} {r r0 : Cls}
    (hk : w[k]? = some r) (h0 : w[0]? = some r0) : rcplIsubclass r.fx k r0 0 = .ok true := by
  have hpos : r0.fx.pos = 0 := by
    have := (h.fixed 0 _ (get_fixeds h0)).len
    rw [zero_cpl h h0] at this
    simpa using this.symm
  have hz := zero_rcpl h hr hk
  have := lt_of_get hz
  unfold rcplIsubclass
  split
  · rfl
  · rw [if_neg (by omega), hpos, hz]
    simp

theorem subclass_rooted {w : World} (h : WInv w) (hr : WRooted w) {a b : Nat} {ra rb : Cls}
    (ha : w[a]? = some ra) (hb : w[b]? = some rb) :
    rcplIsubclass ra.fx a rb b = .ok (decide (b ∈ ra.fx.cpl)) := by
  by_cases e : b = 0
  · subst e
    rw [subclass_zero h hr ha hb]
    simp [zero_mem h hr a ra ha]
  · have := h.subclass_eq ha hb e
    simpa [subclass, ha, hb] using this

theorem new_supers_make {w : World} (h : WInv w) {d : Def} {w' : World}
    (he : makeClass w d = .ok w') : ∀ (k : Nat) (r : Cls), w'[k]? = some r →
      (∃ r0, w[k]? = some r0 ∧ r.fx = r0.fx) ∨ r.fx.supers = d.supers := by
  obtain ⟨-, cpls, M, -, -, hfx, -⟩ := makeClass_ok h he
  intro k r hr
  have h1 := get_fixeds hr
  rw [hfx] at h1
  rcases get_append_inv h1 with h2 | ⟨-, h2⟩
  · obtain ⟨r0, hr0, e⟩ := get_of_fixeds h2
    exact Or.inl ⟨r0, hr0, e.symm⟩
  · right; rw [h2]; rfl

theorem new_supers_compile {w0 : World} : ∀ (ds : List Def) {w w' : World}, LInv w0 w →
    compileClasses w0.length w ds = .ok w' → ∀ (k : Nat) (r : Cls), w'[k]? = some r →
      (∃ r0, w[k]? = some r0 ∧ r.fx = r0.fx) ∨ ∃ d ∈ ds, r.fx.supers = d.supers := by
  intro ds
  induction ds with
  | nil =>
    intro w w' _ he k r hr
    simp only [compileClasses] at he
    cases he
    exact Or.inl ⟨r, hr, rfl⟩
  | cons d ds ih =>
    intro w w' h he k r hr
    simp only [compileClasses] at he
    cases hc : compileClass w0.length w d with
    | error e => simp [hc] at he
    | ok w1 =>
      simp only [hc] at he
      obtain ⟨h1, cpls, M, -, -, hfx, -⟩ := compileClass_ok h hc
      rcases ih h1 he k r hr with ⟨r1, hr1, e1⟩ | ⟨d', hd', e⟩
      · have h2 := get_fixeds hr1
        rw [hfx] at h2
        rcases get_append_inv h2 with h3 | ⟨-, h3⟩
        · obtain ⟨r0, hr0, e⟩ := get_of_fixeds h3
          exact Or.inl ⟨r0, hr0, e1.trans e.symm⟩
        · exact Or.inr ⟨d, List.mem_cons_self, by rw [e1, h3]; rfl⟩
      · exact Or.inr ⟨d', List.mem_cons_of_mem _ hd', e⟩

/-- Loading does not change the fixed parts after compilation. -/
theorem load_fixeds {w : World} (h : WInv w) {ds : List Def} {w' : World}
    (he : loadLibrary w ds = .ok w') : ∃ w1, compileClasses w.length w ds = .ok w1 ∧
      fixeds w' = fixeds w1 := by
  obtain ⟨-, w1, w2, hc, -, hx, -, rfl⟩ := loadLibrary_ok h he
  refine ⟨w1, hc, ?_⟩
  rw [(applyJoint_only _ _ _ _).fixeds_eq, hx.1, finishAll_fixeds]

theorem step_rooted {w : World} (h : WInv w) (hr : WRooted w) {op : Op}
    (ho : ∀ d ∈ op.defs, d.supers ≠ []) {w' : World} (he : step w op = .ok w') : WRooted w' := by
  cases op with
  | make d =>
    intro k r hk h0
    rcases new_supers_make h he k r hk with ⟨r0, hr0, e⟩ | e
    · rw [e]; exact hr k r0 hr0 h0
    · rw [e]; exact ho d (by simp [Op.defs])
  | load ds =>
    obtain ⟨w1, hc, hf⟩ := load_fixeds h he
    intro k r hk h0
    have h1 := get_fixeds hk
    rw [hf] at h1
    obtain ⟨r1, hr1, e1⟩ := get_of_fixeds h1
    rcases new_supers_compile ds (LInv.start h) hc k r1 hr1 with ⟨r0, hr0, e⟩ | ⟨d, hd, e⟩
    · rw [← e1, e]; exact hr k r0 hr0 h0
    · rw [← e1, e]; exact ho d (by simpa [Op.defs] using hd)

theorem run_rooted : ∀ (ops : List Op) {w : World}, WInv w → WRooted w → Rooted ops →
    WRooted (run w ops) := by
  intro ops
  induction ops with
  | nil => intro w _ h _; exact h
  | cons op ops ih =>
    intro w h hr ho
    have ho' : Rooted ops := fun o hm => ho o (List.mem_cons_of_mem _ hm)
    simp only [run]
    cases hs : step w op with
    | ok w' => exact ih (step_inv h hs) (step_rooted h hr (ho op List.mem_cons_self) hs) ho'
    | error e => exact ih h hr ho'

theorem object_rooted : WRooted objectWorld := by
  intro k r h h0
  match k, h with
  | 0, _ => exact absurd rfl h0
  | k + 1, h => simp [objectWorld] at h

/-! ### The `instance?` tests -/

theorem masked_iff {w : World} (h : WInv w) (hb : DistinctBits w) {k c : Nat} {rk rc : Cls}
    (hk : w[k]? = some rk) (hc : w[c]? = some rc) (hne : rc.fx.bit ≠ 0) :
    instMasked rk.fx rc = decide (c ∈ rk.fx.cpl) := by
  obtain ⟨i, hi⟩ := hb.1 c rc hc hne
  have hmask := (h.fixed k _ (get_fixeds hk)).mask i
  have h1 : instMasked rk.fx rc = rk.fx.mask.testBit i := by
    simp only [instMasked, hi]
    cases hbit : rk.fx.mask.testBit i with
    | true =>
      simp only [decide_eq_true_eq]
      intro hz
      have := congrArg (fun n => Nat.testBit n i) hz
      simp [Nat.testBit_and, hbit, Nat.testBit_two_pow_self] at this
    | false =>
      simp only [decide_eq_false_iff_not, not_not]
      apply Nat.eq_of_testBit_eq
      intro j
      rw [Nat.testBit_and, Nat.testBit_two_pow]
      by_cases e : i = j
      · subst e; simp [hbit]
      · simp [e]
  rw [h1]
  apply Bool.eq_iff_iff.mpr
  rw [hmask, decide_eq_true_eq]
  constructor
  · rintro ⟨x, hx, g, hg, hgb⟩
    obtain ⟨rx, hrx, rfl⟩ := get_of_fixeds hg
    have hbne : rx.fx.bit ≠ 0 := by
      intro e
      rw [e] at hgb
      simp at hgb
    obtain ⟨j, hj⟩ := hb.1 x rx hrx hbne
    rw [hj, Nat.testBit_two_pow, decide_eq_true_eq] at hgb
    subst hgb
    have := hb.2 c x rc rx hc hrx (by rw [hi, hj]) hne
    rwa [this]
  · intro hm
    exact ⟨c, hm, rc.fx, get_fixeds hc, by rw [hi, Nat.testBit_two_pow_self]⟩

theorem instSmall_eq {isub : Fixed} {sub c : Nat} {rc : Cls} (ho : rc.others = [])
    (hp : rc.fx.pos < isub.rcpl.length) : instSmall isub sub rc c = rcplIsubclass isub sub rc c := by
  simp only [instSmall, rcplIsubclass, ho]
  split
  · rfl
  · rw [if_neg (by omega), List.getElem?_eq_getElem hp]
    simp only [posLoop]
    split
    · next e => simp [e]
    · next e => simp [e]

theorem instLarge_eq {isub : Fixed} {sub c : Nat} {rc : Cls} (ho : rc.others = []) :
    instLarge isub sub rc c = rcplIsubclass isub sub rc c := by
  simp only [instLarge, rcplIsubclass, ho]
  by_cases e : c = sub
  · simp [e]
  · have e' : ¬ sub = c := fun h => e h.symm
    rw [if_neg e, if_neg e']
    by_cases hp : rc.fx.pos < isub.rcpl.length
    · rw [if_pos hp, if_neg (by omega), List.getElem?_eq_getElem hp]
      simp only [posLoop]
      split
      · next e => simp [e]
      · next e => simp [e]
    · rw [if_neg hp, if_pos (by omega)]

theorem instance_eq {w : World} (h : WInv w) {k c : Nat} {rk rc : Cls}
    (hk : w[k]? = some rk) (hc : w[c]? = some rc) (hm : rc.fx.bit = 0) (h0 : rc.iep ≠ .object) :
    instanceP w k c = rcplIsubclass rk.fx k rc c := by
  have hlen : minRcplSize ≤ rk.fx.rcpl.length := by
    rw [(h.fixed k _ (get_fixeds hk)).rcpl, rcplOf_length]
    omega
  rcases (h.good c rc hc).iep with hi | ⟨-, hi⟩
  · simp only [instanceP, hk, hc]
    unfold chooseIep at hi
    rw [if_neg (by simp [hm])] at hi
    by_cases ho : rc.others.length > 0
    · rw [if_pos ho] at hi
      rw [hi]
    · have ho' : rc.others = [] := List.length_eq_zero_iff.mp (by omega)
      rw [if_neg ho] at hi
      by_cases hp : rc.fx.pos < minRcplSize
      · rw [if_pos hp] at hi
        rw [hi]
        exact instSmall_eq ho' (by omega)
      · rw [if_neg hp] at hi
        rw [hi]
        exact instLarge_eq ho'
  · exact absurd hi h0

end Verif.Class
