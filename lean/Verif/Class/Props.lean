/-
C13, C14, C43, C44: class precedence lists, subclass and instance tests, joint classes, and the
report on inconsistent precedence lists.
-/
import Verif.Class.Final
import Verif.Class.Report
import Verif.Types.Props

namespace Verif.Class

/-! ### A few worlds -/

/-- A library with `<a>` (1), `<b>` (2), `<c>` (1, 2) primary (3) and `<d>` (2) (4), and then two
    classes made at run time: `(<c>, <d>)` (5) and `(<d>)` (6). -/
def demoOps : List Op :=
  [.load [⟨[0], false, 0⟩, ⟨[0], false, 0⟩, ⟨[1, 2], true, 0⟩, ⟨[2], false, 0⟩],
   .make ⟨[3, 4], false, 0⟩, .make ⟨[4], false, 0⟩]

def demoW : World := run objectWorld demoOps

theorem demo_reachable : Reachable demoW := ⟨demoOps, rfl⟩

/-- A chain of classes so long that the vectors outgrow their smallest size. -/
def chainOps : List Op := (List.range 8).map (fun n => .make ⟨[n], false, 0⟩)

/-- A library in which `<a>` (1) and `<b>` (2) have subtype bits, with a second library above. -/
def bitsOps : List Op :=
  [.load [⟨[0], false, 1⟩, ⟨[0], false, 2⟩, ⟨[1], false, 0⟩], .load [⟨[3, 2], false, 0⟩],
   .make ⟨[0], false, 0⟩]

def bitsW : World := run objectWorld bitsOps

/-! ### C13: precedence lists -/

/-- C13: in every world that class definitions lead to, the precedence list of a class starts with
    the class, has no duplicates, keeps the order of the direct superclasses and of each of their
    precedence lists, and has exactly the superclasses of the class as elements. -/
theorem cpl_sound (w : World) (h : Reachable w) (c : Nat) (r : Cls) (hc : w[c]? = some r) :
    ∃ L cpls, allSuperclasses w c = .ok L ∧ ListsOf w r.fx.supers cpls ∧
      Acceptable c r.fx.supers cpls L ∧ ∀ x, x ∈ L ↔ Superclass w c x := by
  have hw := reachable_inv h
  have hok := hw.fixed c _ (get_fixeds hc)
  have hlists : ∃ cpls, superCpls w r.fx.supers = .ok cpls := by
    apply superCpls_exists hw.fixed
    intro s hs
    obtain ⟨g, hg, -⟩ := hok.inh s hs
    have := lt_of_get hg
    rwa [length_fixeds] at this
  obtain ⟨cpls, hcp⟩ := hlists
  have hC := superCpls_ok hw.fixed _ _ hcp
  refine ⟨r.fx.cpl, cpls, hw.all hc, (superCpls_iff hw.fixed _ _).mp hcp, ?_, hw.mem_cpl c r hc⟩
  obtain ⟨M, hM, -⟩ := hok.head
  refine ⟨by rw [hM]; rfl, hok.nodup, hok.sups.trans (List.tail_sublist _), fun l hl => ?_,
    fun x hx => ?_⟩
  · obtain ⟨s, hs, g, hg, rfl⟩ := hC.of_mem.2 l hl
    obtain ⟨g2, hg2, hsub⟩ := hok.inh s hs
    rw [hg] at hg2
    cases hg2
    exact hsub
  · rcases hok.src x hx with rfl | ⟨s, hs, g, hg, hxg⟩
    · exact Or.inl rfl
    · obtain ⟨g2, hg2, hmem⟩ := hC.of_mem.1 s hs
      rw [hg] at hg2
      cases hg2
      exact Or.inr (Or.inr ⟨_, hmem, hxg⟩)

set_option maxRecDepth 100000 in
example : allSuperclasses demoW 5 = .ok [5, 3, 1, 4, 2, 0] ∧ allSuperclasses demoW 3 = .ok [3, 1, 2, 0] := by
  decide +kernel

/-- C13: the precedence list of every superclass, direct or not, is kept in order. -/
theorem cpl_monotone (w : World) (h : Reachable w) (c b : Nat) (L K : List Nat)
    (hL : allSuperclasses w c = .ok L) (hK : allSuperclasses w b = .ok K) (hs : Superclass w c b) :
    K.Sublist L := by
  have hw := reachable_inv h
  cases hc : w[c]? with
  | none => simp [allSuperclasses, hc] at hL
  | some r =>
    cases hb : w[b]? with
    | none => simp [allSuperclasses, hb] at hK
    | some rb =>
      rw [hw.all hc] at hL
      rw [hw.all hb] at hK
      cases hL; cases hK
      obtain ⟨g, hg, hsub⟩ := hw.fixed.trans c _ (get_fixeds hc) b ((hw.mem_cpl c r hc b).mpr hs)
      rw [get_fixeds hb] at hg
      cases hg
      exact hsub

set_option maxRecDepth 100000 in
example : Superclass demoW 5 2 := by
  refine Relation.ReflTransGen.head (b := 4) ⟨_, rfl, ?_⟩ (Relation.ReflTransGen.single ⟨_, rfl, ?_⟩)
  · decide +kernel
  · decide +kernel

theorem make_ok_acceptable {w : World} (hw : WInv w) {d : Def} {w' : World}
    (he : makeClass w d = .ok w') : (∀ s ∈ d.supers, s < w.length) ∧
    (∃ cpls L, ListsOf w d.supers cpls ∧ Acceptable w.length d.supers cpls L) ∧
    PrimariesRelated w d.supers := by
  obtain ⟨hw', cpls, M, hcp, hM, hfx, -⟩ := makeClass_ok hw he
  have hC := superCpls_ok hw.fixed _ _ hcp
  refine ⟨superCpls_lt hw.fixed hcp, ⟨cpls, _, (superCpls_iff hw.fixed _ _).mp hcp,
    hM.acceptable hw.fixed hC⟩, related_of_fixed hw hC hM ?_⟩
  -- the new class obeys the rule for primary classes
  have hself : (fixeds w')[w.length]? = some (newFixed w d (w.length :: M) 0) := by
    rw [hfx]
    simp [fixeds]
  have hok := hw'.fixed _ _ hself
  have hcpl : (newFixed w d (w.length :: M) 0).cpl = w.length :: M :=
          (newFixed_cpl (by simp)).1
  intro a ha b hb ga gb hga hgb pa pb
  refine hok.prim a (by rw [hcpl]; simp [ha]) b (by rw [hcpl]; simp [hb]) ga gb ?_ ?_ pa pb
  · rw [hfx]; exact get_append hga
  · rw [hfx]; exact get_append hgb

/-- C13: run-time class creation fails with the inconsistency error exactly when no acceptable
    precedence list exists. -/
theorem make_inconsistent_iff (w : World) (h : Reachable w) (d : Def)
    (hd : ∀ s ∈ d.supers, s < w.length) :
    makeClass w d = .error .inconsistent ↔
      ¬ ∃ cpls L, ListsOf w d.supers cpls ∧ Acceptable w.length d.supers cpls L := by
  have hw := reachable_inv h
  constructor
  · rintro he ⟨cpls, L, hl, hA⟩
    rcases makeClass_error hw he with ⟨h1, -⟩ | ⟨cpls', hcp, h1⟩
    · cases h1
    · have := hl.unique ((superCpls_iff hw.fixed _ _).mp hcp)
      subst this
      rcases h1 with ⟨-, h1⟩ | ⟨h1, -⟩
      · refine h1 ⟨L, hA.once, fun l hl' => ?_⟩
        rcases List.mem_append.mp hl' with h2 | h2
        · exact hA.inherited l h2
        · rw [List.mem_singleton] at h2
          subst h2
          exact hA.ordered
      · cases h1
  · intro hno
    cases he : makeClass w d with
    | ok w' => exact absurd (make_ok_acceptable hw he).2.1 hno
    | error e =>
      rcases makeClass_error hw he with ⟨-, s, hs, h1⟩ | ⟨cpls, hcp, h1⟩
      · exact absurd (hd s hs) (by omega)
      · rcases h1 with ⟨rfl, -⟩ | ⟨-, M, hM, -⟩
        · rfl
        · exact absurd ⟨cpls, _, (superCpls_iff hw.fixed _ _).mp hcp,
            hM.acceptable hw.fixed (superCpls_ok hw.fixed _ _ hcp)⟩ hno

/-- A class with two superclasses that come in the other order in a superclass of one. -/
example : makeClass demoW ⟨[5, 3, 1, 2, 4], false, 0⟩ = .error .inconsistent ∧
    makeClass demoW ⟨[2, 1], false, 0⟩ ≠ .error .inconsistent := by
  decide +kernel

/-- C13: with a list available, run-time class creation fails exactly when two primary classes
    that are not in the subclass relation would be combined. -/
theorem make_primaries_iff (w : World) (h : Reachable w) (d : Def)
    (hd : ∃ cpls L, ListsOf w d.supers cpls ∧ Acceptable w.length d.supers cpls L) :
    makeClass w d = .error .primaries ↔ ¬ PrimariesRelated w d.supers := by
  have hw := reachable_inv h
  obtain ⟨cpls0, L, hl, hA⟩ := hd
  have hcp0 := (superCpls_iff hw.fixed _ _).mpr hl
  constructor
  · intro he hp
    rcases makeClass_error hw he with ⟨h1, -⟩ | ⟨cpls, hcp, h1⟩
    · cases h1
    · rcases h1 with ⟨h1, -⟩ | ⟨-, M, hM, a, b, ra, rb, hab, ha, hb, pa, pb, hn⟩
      · cases h1
      · exact unrelated hw (superCpls_ok hw.fixed _ _ hcp) hM hab ha hb pa pb hn hp
  · intro hno
    cases he : makeClass w d with
    | ok w' => exact absurd (make_ok_acceptable hw he).2.2 hno
    | error e =>
      rcases makeClass_error hw he with ⟨-, s, hs, h1⟩ | ⟨cpls, hcp, h1⟩
      · exact absurd (superCpls_lt hw.fixed hcp0 s hs) (by omega)
      · rcases h1 with ⟨-, h1⟩ | ⟨rfl, -⟩
        · rw [hcp0] at hcp
          cases hcp
          exfalso
          refine h1 ⟨L, hA.once, fun l hl' => ?_⟩
          rcases List.mem_append.mp hl' with h2 | h2
          · exact hA.inherited l h2
          · rw [List.mem_singleton] at h2
            subst h2
            exact hA.ordered
        · rfl

/-- A second primary class cannot be mixed with `<c>`. -/
example : makeClass (run demoW [.make ⟨[1], true, 0⟩]) ⟨[3, 7], false, 0⟩ = .error .primaries := by
  decide +kernel

/-- C13: class creation succeeds exactly when the superclasses exist, an acceptable list exists and
    the primary superclasses are related; in all other cases one of the three errors is signalled,
    never another. -/
theorem make_succeeds_iff (w : World) (h : Reachable w) (d : Def) :
    ((∃ w', makeClass w d = .ok w') ↔ (∀ s ∈ d.supers, s < w.length) ∧
      (∃ cpls L, ListsOf w d.supers cpls ∧ Acceptable w.length d.supers cpls L) ∧
      PrimariesRelated w d.supers) ∧
    ∀ e, makeClass w d = .error e → e = .noClass ∨ e = .inconsistent ∨ e = .primaries := by
  have hw := reachable_inv h
  have herr : ∀ e, makeClass w d = .error e → e = .noClass ∨ e = .inconsistent ∨ e = .primaries := by
    intro e he
    rcases makeClass_error hw he with ⟨h1, -⟩ | ⟨cpls, hcp, ⟨h1, -⟩ | ⟨h1, -⟩⟩
    · exact Or.inl h1
    · exact Or.inr (Or.inl h1)
    · exact Or.inr (Or.inr h1)
  refine ⟨⟨fun ⟨w', he⟩ => make_ok_acceptable hw he, ?_⟩, herr⟩
  rintro ⟨h1, h2, h3⟩
  cases he : makeClass w d with
  | ok w' => exact ⟨w', rfl⟩
  | error e =>
    exfalso
    rcases herr e he with rfl | rfl | rfl
    · rcases makeClass_error hw he with ⟨-, s, hs, h4⟩ | ⟨cpls, hcp, ⟨h4, -⟩ | ⟨h4, -⟩⟩
      · exact absurd (h1 s hs) (by omega)
      · cases h4
      · cases h4
    · exact (make_inconsistent_iff w h d h1).mp he h2
    · exact (make_primaries_iff w h d h2).mp he h3

/-- C13: loading a library only ever fails for the same three reasons; in particular the position
    data of the classes it extends always fit. -/
theorem load_errors (w : World) (h : Reachable w) (ds : List Def) (e : Err)
    (he : loadLibrary w ds = .error e) : e = .noClass ∨ e = .inconsistent ∨ e = .primaries :=
  loadLibrary_error (reachable_inv h) he

theorem fixeds_get_all {w w' : World} (h : FInv (fixeds w)) (h' : FInv (fixeds w')) {c : Nat}
    {f : Fixed} (hf : (fixeds w)[c]? = some f) (hf' : (fixeds w')[c]? = some f) :
    allSuperclasses w' c = allSuperclasses w c := by
  obtain ⟨r, hr, rfl⟩ := get_of_fixeds hf
  obtain ⟨r', hr', e⟩ := get_of_fixeds hf'
  rw [all_eq h hr, all_eq h' hr', e]

theorem compileClasses_prefix {w0 : World} : ∀ (ds : List Def) {w w' : World}, LInv w0 w →
    compileClasses w0.length w ds = .ok w' → ∃ fs, fixeds w' = fixeds w ++ fs := by
  intro ds
  induction ds with
  | nil =>
    intro w w' _ he
    simp only [compileClasses] at he
    cases he
    exact ⟨[], by simp⟩
  | cons d ds ih =>
    intro w w' h he
    simp only [compileClasses] at he
    cases hc : compileClass w0.length w d with
    | error e => simp [hc] at he
    | ok w1 =>
      simp only [hc] at he
      obtain ⟨h1, cpls, M, -, -, hfx, -⟩ := compileClass_ok h hc
      obtain ⟨fs, hfs⟩ := ih h1 he
      exact ⟨_ :: fs, by rw [hfs, hfx, List.append_assoc]; rfl⟩

/-- C13: defining classes, at run time or by loading a library, does not change the precedence
    lists of the classes that exist. -/
theorem cpl_stable (w : World) (h : Reachable w) (op : Op) (w' : World) (he : step w op = .ok w')
    (c : Nat) (hc : c < w.length) : allSuperclasses w' c = allSuperclasses w c := by
  have hw := reachable_inv h
  have hw' := step_inv hw he
  have hpre : ∃ fs, fixeds w' = fixeds w ++ fs := by
    cases op with
    | make d =>
      obtain ⟨-, cpls, M, -, -, hfx, -⟩ := makeClass_ok hw he
      exact ⟨_, hfx⟩
    | load ds =>
      obtain ⟨w1, hc1, hf⟩ := load_fixeds hw he
      obtain ⟨fs, hfs⟩ := compileClasses_prefix ds (LInv.start hw) hc1
      exact ⟨fs, by rw [hf, hfs]⟩
  obtain ⟨fs, hfs⟩ := hpre
  have hg := get_fixeds (List.getElem?_eq_getElem hc)
  refine fixeds_get_all hw.fixed hw'.fixed hg ?_
  rw [hfs, List.getElem?_append_left (lt_of_get hg)]
  exact hg

example : ∃ w', step demoW (.load [⟨[5, 6], false, 0⟩]) = .ok w' ∧
    allSuperclasses w' 7 = .ok [7, 5, 3, 1, 6, 4, 2, 0] ∧
    allSuperclasses w' 5 = .ok [5, 3, 1, 4, 2, 0] :=
  ⟨_, rfl, by decide +kernel, by decide +kernel⟩

theorem pairwise_of_related {w : World} (h : WInv w) {sups : List Nat} {cpls : List (List Nat)}
    (hc : CplsOf (fixeds w) sups cpls) (hp : PrimariesRelated w sups) :
    pairwiseRelated w (cpls.filterMap (leastPrimary w)) = true := by
  have key : ∀ f ∈ cpls.filterMap (leastPrimary w), ∃ s ∈ sups, ∃ rf, w[f]? = some rf ∧
      rf.fx.primary = true ∧ Superclass w s f := by
    intro f hf
    obtain ⟨l, hl, hlp⟩ := List.mem_filterMap.mp hf
    obtain ⟨s, hs, g, hg, rfl⟩ := hc.of_mem.2 l hl
    obtain ⟨rs, hrs, rfl⟩ := get_of_fixeds hg
    have hmem := List.mem_of_find?_eq_some hlp
    have hpf := List.find?_some hlp
    obtain ⟨gf, hgf, -⟩ := h.fixed.trans s _ (get_fixeds hrs) f hmem
    obtain ⟨rf, hrf, rfl⟩ := get_of_fixeds hgf
    exact ⟨s, hs, rf, hrf, by simpa [hrf] using hpf, (h.mem_cpl s rs hrs f).mp hmem⟩
  have gen : ∀ l : List Nat, (∀ f ∈ l, ∃ s ∈ sups, ∃ rf, w[f]? = some rf ∧
      rf.fx.primary = true ∧ Superclass w s f) → pairwiseRelated w l = true := by
    intro l
    induction l with
    | nil => intro _; rfl
    | cons x l ih =>
      intro hl
      simp only [pairwiseRelated, Bool.and_eq_true, List.all_eq_true, Bool.or_eq_true]
      refine ⟨fun y hy => ?_, ih (fun f hf => hl f (List.mem_cons_of_mem _ hf))⟩
      obtain ⟨s, hs, rx, hrx, px, hsx⟩ := hl x List.mem_cons_self
      obtain ⟨t, ht, ry, hry, py, hty⟩ := hl y (List.mem_cons_of_mem _ hy)
      rw [statSubtype_eq h.fixed hrx, statSubtype_eq h.fixed hry, decide_eq_true_eq,
        decide_eq_true_eq]
      rcases hp s hs t ht x y hsx hty ⟨rx, hrx, px⟩ ⟨ry, hry, py⟩ with h1 | h1
      · exact Or.inr ((h.mem_cpl x rx hrx y).mpr h1)
      · exact Or.inl ((h.mem_cpl y ry hry x).mpr h1)
  exact gen _ key

/-- C13: the compiler accepts a class definition exactly when the run time does, and gives the new
    class the same precedence list. -/
theorem compiler_agrees (w : World) (h : Reachable w) (d : Def) :
    ((∃ w', loadLibrary w [d] = .ok w') ↔ ∃ w', makeClass w d = .ok w') ∧
    ∀ w1 w2, loadLibrary w [d] = .ok w1 → makeClass w d = .ok w2 →
      allSuperclasses w1 w.length = allSuperclasses w2 w.length := by
  have hw := reachable_inv h
  constructor
  · constructor
    · rintro ⟨w', he⟩
      obtain ⟨w1, hc, hf⟩ := load_fixeds hw he
      simp only [compileClasses] at hc
      cases hcc : compileClass w.length w d with
      | error e => simp [hcc] at hc
      | ok w2 =>
        obtain ⟨hL, cpls, M, hcp, hM, hfx, -⟩ := compileClass_ok (LInv.start hw) hcc
        have hC := superCpls_ok hw.fixed _ _ hcp
        refine (make_succeeds_iff w h d).1.mpr ⟨superCpls_lt hw.fixed hcp,
          ⟨cpls, _, (superCpls_iff hw.fixed _ _).mp hcp, hM.acceptable hw.fixed hC⟩,
          related_of_fixed hw hC hM ?_⟩
        have hself : (fixeds w2)[w.length]? = some (newFixed w d (w.length :: M) d.bit) := by
          rw [hfx]
          simp [fixeds]
        have hok := hL.fixed _ _ hself
        have hcpl : (newFixed w d (w.length :: M) d.bit).cpl = w.length :: M :=
          (newFixed_cpl (by simp)).1
        intro a ha b hb ga gb hga hgb pa pb
        refine hok.prim a (by rw [hcpl]; simp [ha]) b (by rw [hcpl]; simp [hb]) ga gb ?_ ?_ pa pb
        · rw [hfx]; exact get_append hga
        · rw [hfx]; exact get_append hgb
    · rintro ⟨w', he⟩
      obtain ⟨h1, ⟨cpls, L, hl, hA⟩, h3⟩ := make_ok_acceptable hw he
      cases hlo : loadLibrary w [d] with
      | ok w1 => exact ⟨w1, rfl⟩
      | error e =>
        exfalso
        have hcp := (superCpls_iff hw.fixed _ _).mpr hl
        have hC := superCpls_ok hw.fixed _ _ hcp
        obtain ⟨K, hK⟩ := mergeC3_complete (mergeFuel (cpls ++ [d.supers])) [w.length]
          (cpls ++ [d.supers]) L (Nat.le_refl _) hA.once (fun l hl' => by
            rcases List.mem_append.mp hl' with h2 | h2
            · exact hA.inherited l h2
            · rw [List.mem_singleton] at h2
              subst h2
              exact hA.ordered)
        have hpw := pairwise_of_related hw hC h3
        -- compilation succeeds
        have hcc : ∃ w1, compileClass w.length w d = .ok w1 := by
          cases hcc : compileClass w.length w d with
          | ok w1 => exact ⟨w1, rfl⟩
          | error e' =>
            exfalso
            rcases compileClass_error (LInv.start hw) hcc with rfl | rfl | rfl
            all_goals
              unfold compileClass at hcc
              simp only [hcp, hK, hpw, if_true] at hcc
              obtain ⟨M, hKM, hM⟩ := mergeC3_ok _ _ _ _ hK
              simp only [List.reverse_cons, List.reverse_nil, List.nil_append,
                List.singleton_append] at hKM
              subst hKM
              obtain ⟨hF, hcpl⟩ := hw.fixed.addNew (bit := d.bit) hC hM
                (pairwise_related hw.fixed hC hM hpw)
              generalize newFixed w d (w.length :: M) d.bit = fx at hcc hF hcpl
              have hF1 : FInv (fixeds (w ++ [freshCls fx])) := by
                rw [fixeds_append]; exact hF
              have hself : (fixeds (w ++ [freshCls fx]))[w.length]? = some fx := by
                rw [fixeds_append]
                simp [fixeds, freshCls]
              obtain ⟨w2, he2, -⟩ := setupRcpl_ok (lib := w.length) (f := fx) (fx.pos - 1)
                (w ++ [freshCls fx]) (fun p h1 h2 => by
                  obtain ⟨s, g, hs', -, hg, hpos⟩ := hF1.rcpl_entry hself (p := p) (by omega)
                  obtain ⟨r, hr, rfl⟩ := get_of_fixeds hg
                  exact ⟨s, r, hs', hr, hpos⟩)
              rw [he2] at hcc
              cases hcc
        obtain ⟨w1, hcc⟩ := hcc
        have hcs : compileClasses w.length w [d] = .ok w1 := by
          simp only [compileClasses, hcc]
        obtain ⟨w2, he2, -, -⟩ := load_finish hw (compileClasses_ok [d] (LInv.start hw) hcs)
        unfold loadLibrary at hlo
        simp only [hcs] at hlo
        rw [show (List.range (w1.length - w.length)).map (w.length + ·) =
          mineOf w.length w1.length from rfl, he2] at hlo
        cases hlo
  · intro w1 w2 he1 he2
    obtain ⟨w3, hc, hf⟩ := load_fixeds hw he1
    simp only [compileClasses] at hc
    cases hcc : compileClass w.length w d with
    | error e => simp [hcc] at hc
    | ok w4 =>
      simp only [hcc, Except.ok.injEq] at hc
      subst hc
      -- both lists are results of the same merge
      obtain ⟨hL, cpls, M, hcp, -, hfx, hm⟩ := compileClass_ok (LInv.start hw) hcc
      obtain ⟨hw2, cpls', M', hcp', -, hfx', -, hm'⟩ := makeClass_ok hw he2
      rw [hcp] at hcp'
      cases hcp'
      rw [hm] at hm'
      cases hm'
      have hw1 := (loadLibrary_ok hw he1).1
      have h1 : (fixeds w1)[w.length]? = some (newFixed w d (w.length :: M) d.bit) := by
        rw [hf, hfx]
        simp [fixeds]
      have h2 : (fixeds w2)[w.length]? = some (newFixed w d (w.length :: M) 0) := by
        rw [hfx']
        simp [fixeds]
      obtain ⟨r1, hr1, e1⟩ := get_of_fixeds h1
      obtain ⟨r2, hr2, e2⟩ := get_of_fixeds h2
      rw [hw1.all hr1, hw2.all hr2, e1, e2, (newFixed_cpl (by simp)).1, (newFixed_cpl (by simp)).1]

example : ∃ w1 w2, loadLibrary demoW [⟨[5, 6], false, 0⟩] = .ok w1 ∧
    makeClass demoW ⟨[5, 6], false, 0⟩ = .ok w2 ∧ w1 ≠ w2 :=
  ⟨_, _, rfl, rfl, by decide +kernel⟩

/-! ### C14: `subclass?` and `instance?` -/

/-- C14: `subclass?(a, b)` answers, and answers true exactly when `b` is `a` or a superclass of
    `a`, for every `b` other than `<object>`. -/
theorem subclass_iff_partial (w : World) (h : Reachable w) (a b : Nat) (ha : a < w.length)
    (hb : b < w.length) (h0 : b ≠ 0) :
    ∃ t, subclass w a b = .ok t ∧ (t = true ↔ Superclass w a b) := by
  have hw := reachable_inv h
  have ea := List.getElem?_eq_getElem ha
  have eb := List.getElem?_eq_getElem hb
  exact ⟨_, hw.subclass_eq ea eb h0, by rw [decide_eq_true_eq]; exact hw.mem_cpl a _ ea b⟩

set_option maxRecDepth 100000 in
example : subclass demoW 5 1 = .ok true ∧ subclass demoW 5 2 = .ok true ∧
    subclass demoW 6 1 = .ok false ∧ (demoW[1]?).map (·.others) = some [2, 3] := by
  decide +kernel

/-- C14, without exception for `<object>`, when every class definition names a superclass. -/
theorem subclass_iff_rooted (ops : List Op) (hr : Rooted ops) (a b : Nat)
    (ha : a < (run objectWorld ops).length) (hb : b < (run objectWorld ops).length) :
    ∃ t, subclass (run objectWorld ops) a b = .ok t ∧
      (t = true ↔ Superclass (run objectWorld ops) a b) := by
  have hw := run_inv ops object_inv
  have hrt := run_rooted ops object_inv object_rooted hr
  have ea := List.getElem?_eq_getElem ha
  have eb := List.getElem?_eq_getElem hb
  have := subclass_rooted hw hrt ea eb
  exact ⟨_, by simpa only [subclass, ea, eb] using this,
    by rw [decide_eq_true_eq]; exact hw.mem_cpl a _ ea b⟩

example : Rooted demoOps := by
  intro op hop d hd
  fin_cases hop <;> simp only [Op.defs] at hd <;> fin_cases hd <;> simp

/-- C14 fails for `<object>`: a class made with no superclasses, and a class with `<object>` and
    that class as superclasses.  `<object>` is in the precedence list of the second, but not at the
    end, and no other position is looked at. -/
theorem subclass_object_violated : ∃ w, Reachable w ∧ Superclass w 2 0 ∧
    allSuperclasses w 2 = .ok [2, 0, 1] ∧ subclass w 2 0 = .ok false := by
  refine ⟨run objectWorld [.make ⟨[], false, 0⟩, .make ⟨[0, 1], false, 0⟩], ⟨_, rfl⟩, ?_, ?_, ?_⟩
  · refine Relation.ReflTransGen.single ⟨_, rfl, ?_⟩
    decide +kernel
  · decide +kernel
  · decide +kernel

/-- C14: `instance?(obj, cls)` for an object of class `k` answers true exactly when `cls` is `k` or
    a superclass of `k`, whichever of the five pieces of `instance?` code is installed in `cls`.
    The code without a bounds check never reads outside the vector. -/
theorem instance_iff (ops : List Op) (hr : Rooted ops) (hb : DistinctBits (run objectWorld ops))
    (k c : Nat) (hk : k < (run objectWorld ops).length) (hc : c < (run objectWorld ops).length) :
    ∃ t, instanceP (run objectWorld ops) k c = .ok t ∧
      (t = true ↔ Superclass (run objectWorld ops) k c) := by
  have hw := run_inv ops object_inv
  have hrt := run_rooted ops object_inv object_rooted hr
  generalize run objectWorld ops = w at *
  have ek := List.getElem?_eq_getElem hk
  have ec := List.getElem?_eq_getElem hc
  refine ⟨decide (c ∈ w[k].fx.cpl), ?_, by rw [decide_eq_true_eq]; exact hw.mem_cpl k _ ek c⟩
  by_cases hobj : w[c].iep = .object
  · simp only [instanceP, ek, ec, hobj]
    rcases (hw.good c _ ec).iep with hi | ⟨rfl, -⟩
    · exfalso
      rw [hobj] at hi
      unfold chooseIep at hi
      split at hi
      · cases hi
      · split at hi
        · cases hi
        · split at hi <;> cases hi
    · simp [zero_mem hw hrt k _ ek]
  · by_cases hbit : w[c].fx.bit = 0
    · rw [instance_eq hw ek ec hbit hobj]
      exact subclass_rooted hw hrt ek ec
    · have hi : w[c].iep = .masked := by
        rcases (hw.good c _ ec).iep with hi | ⟨-, hi⟩
        · rw [hi, chooseIep, if_pos hbit]
        · exact absurd hi hobj
      simp only [instanceP, ek, ec, hi]
      rw [masked_iff hw hb ek ec hbit]

set_option maxRecDepth 100000 in
/-- Masks are used for 1 and 2 of `bitsW`, several positions for 3, one position for 4. -/
example : (bitsW.map (·.iep) = [.object, .masked, .masked, .general, .small, .small]) ∧
    instanceP bitsW 4 1 = .ok true ∧ instanceP bitsW 5 1 = .ok false ∧
    (demoW.map (·.iep) = [.object, .general, .small, .general, .small, .small, .small]) := by
  decide +kernel

set_option maxRecDepth 100000 in
/-- The code with a bounds check is used from position 6 on. -/
example : (run objectWorld chainOps).map (·.iep) =
      [.object, .small, .small, .small, .small, .small, .large, .large, .large] ∧
    instanceP (run objectWorld chainOps) 8 6 = .ok true ∧
    instanceP (run objectWorld chainOps) 2 6 = .ok false := by
  decide +kernel

example : DistinctBits bitsW := by
  have hlen : bitsW.length = 6 := by decide +kernel
  have hbits : bitsW.map (·.fx.bit) = [0, 1, 2, 0, 0, 0] := by decide +kernel
  have key : ∀ (c : Nat) (r : Cls), bitsW[c]? = some r → ([0, 1, 2, 0, 0, 0] : List Nat)[c]? = some r.fx.bit := by
    intro c r h
    rw [← hbits, List.getElem?_map, h]
    rfl
  refine ⟨fun c r h hne => ?_, fun c d r s hc hd he hne => ?_⟩
  · have := key c r h
    match c, this with
    | 0, e | 3, e | 4, e | 5, e => simp at e; exact absurd e.symm hne
    | 1, e => exact ⟨0, by simpa using e.symm⟩
    | 2, e => exact ⟨1, by simpa using e.symm⟩
    | c + 6, e => simp at e
  · have h1 := key c r hc
    have h2 := key d s hd
    rw [← he] at h2
    match c, h1 with
    | 0, e | 3, e | 4, e | 5, e => simp at e; exact absurd e.symm hne
    | 1, e =>
      simp at e
      rw [← e] at h2
      match d, h2 with
      | 0, e | 2, e | 3, e | 4, e | 5, e => simp at e
      | 1, _ => rfl
      | d + 6, e => simp at e
    | 2, e =>
      simp at e
      rw [← e] at h2
      match d, h2 with
      | 0, e | 1, e | 3, e | 4, e | 5, e => simp at e
      | 2, _ => rfl
      | d + 6, e => simp at e
    | c + 6, e => simp at e

/-! ### C43: joint classes -/

/-- The class heterarchy that the type relations of `Verif.Types` see is the one of `w`. -/
structure Describes (w : World) (K : Types.World (Fin w.length)) : Prop where
  sub : ∀ a b, K.sub a b = true ↔ subclass w a b = .ok true
  primary : ∀ a, K.primary a = w[a].fx.primary
  joint : ∀ a b, b ∈ K.joint a ↔ b.val ∈ w[a].joint

theorem describes_sub {w : World} (hw : WInv w) (hr : WRooted w) {K : Types.World (Fin w.length)}
    (hK : Describes w K) (a b : Fin w.length) : K.sub a b = true ↔ b.val ∈ w[a].fx.cpl := by
  rw [hK.sub]
  have ea : w[a.val]? = some w[a] := List.getElem?_eq_getElem a.isLt
  have eb : w[b.val]? = some w[b] := List.getElem?_eq_getElem b.isLt
  have := subclass_rooted hw hr ea eb
  simp only [subclass, ea, eb]
  rw [this]
  simp

/-- C43: `subclass?` orders the classes of every world, as the type relations assume
    (`Types.Lawful`). -/
theorem subclass_order (ops : List Op) (hr : Rooted ops)
    (K : Types.World (Fin (run objectWorld ops).length)) (hK : Describes _ K) :
    (∀ c, K.sub c c = true) ∧
    (∀ a b c, K.sub a b = true → K.sub b c = true → K.sub a c = true) ∧
    (∀ a b, K.sub a b = true → K.sub b a = true → a = b) := by
  have hw := run_inv ops object_inv
  have hrt := run_rooted ops object_inv object_rooted hr
  generalize run objectWorld ops = w at *
  have hs := describes_sub hw hrt hK
  have eg : ∀ a : Fin w.length, w[a.val]? = some w[a] := fun a => List.getElem?_eq_getElem a.isLt
  refine ⟨fun c => ?_, fun a b c h1 h2 => ?_, fun a b h1 h2 => ?_⟩
  · rw [hs]
    exact (hw.fixed c _ (get_fixeds (eg c))).self_mem
  · rw [hs] at *
    obtain ⟨g, hg, hsub⟩ := hw.fixed.trans a _ (get_fixeds (eg a)) b h1
    rw [get_fixeds (eg b)] at hg
    cases hg
    exact hsub.subset h2
  · rw [hs] at h1 h2
    have h3 := (hw.fixed a _ (get_fixeds (eg a))).mem_le h1
    have h4 := (hw.fixed b _ (get_fixeds (eg b))).mem_le h2
    exact Fin.ext (by omega)

/-- C43, for worlds made by loading libraries: the two facts on which `disjoint-types?` rests hold.
    Related primary classes hold in every world (`primaries_related`); for joint classes, classes
    made at run time are left out. -/
theorem joint_recorded_partial (ops : List Op) (hr : Rooted ops) (hl : LoadsOnly ops)
    (K : Types.World (Fin (run objectWorld ops).length)) (hK : Describes _ K) : Types.Joined K := by
  have hw := run_inv ops object_inv
  have hrt := run_rooted ops object_inv object_rooted hr
  have hj := run_joint ops object_inv object_joint hl
  generalize run objectWorld ops = w at *
  have hs := describes_sub hw hrt hK
  have eg : ∀ a : Fin w.length, w[a.val]? = some w[a] := fun a => List.getElem?_eq_getElem a.isLt
  refine ⟨fun k a b h1 h2 p1 p2 => ?_, fun k a b h1 h2 => ?_⟩
  · rw [hs] at *
    rw [hs]
    rw [hK.primary] at p1 p2
    exact (hw.fixed k _ (get_fixeds (eg k))).prim a h1 b h2 _ _ (get_fixeds (eg a))
      (get_fixeds (eg b)) p1 p2
  · rw [hs] at h1 h2
    rw [hs, hs, hK.joint, hK.joint]
    rcases hj k _ (eg k) a h1 b h2 _ _ (eg a) (eg b) with h3 | h3 | h3
    · exact Or.inl h3
    · exact Or.inr (Or.inl h3)
    · right; right
      rcases h3 with ⟨r, hr, hm⟩ | ⟨r, hr, hm⟩
      · rw [eg a] at hr
        cases hr
        exact Or.inr hm
      · rw [eg b] at hr
        cases hr
        exact Or.inl hm

/-- C43, the part about primary classes, for every world. -/
theorem primaries_related (w : World) (h : Reachable w) (k a b : Nat) (ha : Superclass w k a)
    (hb : Superclass w k b) (hk : k < w.length) (pa : IsPrimary w a) (pb : IsPrimary w b) :
    Superclass w a b ∨ Superclass w b a := by
  have hw := reachable_inv h
  have ek := List.getElem?_eq_getElem hk
  obtain ⟨ra, hra, pa⟩ := pa
  obtain ⟨rb, hrb, pb⟩ := pb
  rcases (hw.fixed k _ (get_fixeds ek)).prim a ((hw.mem_cpl k _ ek a).mpr ha) b
    ((hw.mem_cpl k _ ek b).mpr hb) _ _ (get_fixeds hra) (get_fixeds hrb) pa pb with h1 | h1
  · exact Or.inl ((hw.mem_cpl a ra hra b).mp h1)
  · exact Or.inr ((hw.mem_cpl b rb hrb a).mp h1)

/-- The heterarchy of a world, with the rest filled in from another description. -/
def describe (w : World) (K : Types.World (Fin w.length)) : Types.World (Fin w.length) :=
  { K with
    sub := fun a b => decide (subclass w a b = .ok true)
    primary := fun a => w[a].fx.primary
    joint := fun a => (List.finRange w.length).filter (fun b => decide (b.val ∈ w[a].joint)) }

theorem describe_describes (w : World) (K : Types.World (Fin w.length)) :
    Describes w (describe w K) :=
  ⟨fun a b => by simp [describe], fun a => rfl, fun a b => by simp [describe]⟩

/-- Two unrelated classes with a common subclass, in one library. -/
def jointOps : List Op := [.load [⟨[0], false, 0⟩, ⟨[0], false, 0⟩, ⟨[1, 2], false, 0⟩]]

set_option maxRecDepth 100000 in
example : Rooted jointOps ∧ LoadsOnly jointOps ∧
    (run objectWorld jointOps).map (·.joint) = [[], [2], [], []] := by
  refine ⟨?_, ?_, by decide +kernel⟩
  · intro op hop d hd
    fin_cases hop
    simp only [Op.defs] at hd
    fin_cases hd <;> simp
  · intro op hop
    fin_cases hop
    exact ⟨_, rfl⟩

/-- The same three classes, the common subclass made at run time. -/
def mixOps : List Op := [.load [⟨[0], false, 0⟩, ⟨[0], false, 0⟩], .make ⟨[1, 2], false, 0⟩]

theorem mix_length : (run objectWorld mixOps).length = 4 := by decide +kernel

set_option maxRecDepth 100000 in
/-- C43 fails for classes made at run time: `disjoint-types?(<a>, <b>)` answers `#t` although a
    class `make(<class>, superclasses: vector(<a>, <b>))` exists. -/
theorem joint_recorded_violated : ∃ w, Reachable w ∧ ∀ K : Types.World (Fin w.length),
    Describes w K → ∃ a b k : Fin w.length, Types.disjCls K a b = true ∧ K.sub k a = true ∧
      K.sub k b = true := by
  refine ⟨run objectWorld mixOps, ⟨_, rfl⟩, fun K hK => ?_⟩
  have hlen := mix_length
  have s12 : subclass (run objectWorld mixOps) 1 2 = .ok false := by decide +kernel
  have s21 : subclass (run objectWorld mixOps) 2 1 = .ok false := by decide +kernel
  have s31 : subclass (run objectWorld mixOps) 3 1 = .ok true := by decide +kernel
  have s32 : subclass (run objectWorld mixOps) 3 2 = .ok true := by decide +kernel
  have hj : (run objectWorld mixOps).all (fun r => r.joint.isEmpty) = true := by decide +kernel
  refine ⟨⟨1, by omega⟩, ⟨2, by omega⟩, ⟨3, by omega⟩, ?_, ?_, ?_⟩
  · have j : ∀ a b, ¬ b ∈ K.joint a := by
      intro a b hb
      rw [hK.joint] at hb
      have := List.all_eq_true.mp hj _ (List.getElem_mem a.isLt)
      rw [List.isEmpty_iff] at this
      have h2 : (run objectWorld mixOps)[a].joint = [] := this
      rw [h2] at hb
      cases hb
    have n1 : K.sub ⟨1, by omega⟩ ⟨2, by omega⟩ = false := by
      rw [Bool.eq_false_iff]
      intro h
      rw [hK.sub] at h
      rw [s12] at h
      cases h
    have n2 : K.sub ⟨2, by omega⟩ ⟨1, by omega⟩ = false := by
      rw [Bool.eq_false_iff]
      intro h
      rw [hK.sub] at h
      rw [s21] at h
      cases h
    simp [Types.disjCls, n1, n2, j]
  · rw [hK.sub]; exact s31
  · rw [hK.sub]; exact s32

/-! ### C44: the report on inconsistent precedence lists -/

/-- C44: the compiler reports no inconsistency exactly when an acceptable precedence list
    exists. -/
theorem report_fine_iff (w : World) (h : Reachable w) (sups : List Nat) (cpls : List (List Nat))
    (hl : ListsOf w sups cpls) :
    report w.length sups cpls = .fine ↔ ∃ L, Acceptable w.length sups cpls L := by
  have hw := reachable_inv h
  have hcp := (superCpls_iff hw.fixed _ _).mpr hl
  have hC := superCpls_ok hw.fixed _ _ hcp
  constructor
  · intro hf
    cases hm : mergeC3 (mergeFuel (cpls ++ [sups])) [w.length] (cpls ++ [sups]) with
    | ok K =>
      obtain ⟨M, -, hM⟩ := mergeC3_ok _ _ _ _ hm
      exact ⟨_, hM.acceptable hw.fixed hC⟩
    | error e =>
      exfalso
      have := mergeC3_error _ _ _ _ (Nat.le_refl _) hm
      subst this
      obtain ⟨rest, hr⟩ := stuck_of_error _ _ _ hm
      simp only [report, hr] at hf
      split at hf
      · cases hf
      · split at hf <;> cases hf
  · rintro ⟨L, hA⟩
    obtain ⟨K, hK⟩ := mergeC3_complete (mergeFuel (cpls ++ [sups])) [w.length] (cpls ++ [sups]) L
      (Nat.le_refl _) hA.once (fun l hl' => by
        rcases List.mem_append.mp hl' with h2 | h2
        · exact hA.inherited l h2
        · rw [List.mem_singleton] at h2
          subst h2
          exact hA.ordered)
    simp only [report, stuck_of_ok _ _ _ _ _ hK]

/-- C44: when the compiler says that the list of one class makes `a` precede `b`, in conflict with
    the list of another class, then both are so. -/
theorem report_sound (c : Nat) (sups : List Nat) (cpls : List (List Nat)) (c1 c2 a b : Nat)
    (h : report c sups cpls = .note c1 c2 a b) :
    ∃ l1 l2, (c1, l1) ∈ (sups ++ [c]).zip (cpls ++ [sups]) ∧
      (c2, l2) ∈ (sups ++ [c]).zip (cpls ++ [sups]) ∧
      [a, b].Sublist l1 ∧ [b, a].Sublist l2 := by
  unfold report at h
  simp only at h
  cases hs : stuckLists (mergeFuel (cpls ++ [sups]) + 1) (cpls ++ [sups]) with
  | none => simp [hs] at h
  | some rest =>
    simp only [hs] at h
    cases hw : witnessOuter rest 0 with
    | none => simp [hw] at h
    | some r =>
      obtain ⟨w1, w2, i, j⟩ := r
      simp only [hw] at h
      cases hi : (sups ++ [c])[i]? with
      | none => simp [hi] at h
      | some d1 =>
        cases hj : (sups ++ [c])[j]? with
        | none => simp [hi, hj] at h
        | some d2 =>
          simp only [hi, hj, Report.note.injEq] at h
          obtain ⟨rfl, rfl, rfl, rfl⟩ := h
          obtain ⟨m1, m2, t1, t2, e1, e2, g1, g2, h1, h2⟩ := witnessOuter_spec _ _ _ _ _ _ hw
          simp only [Nat.zero_add] at e1 e2
          subst e1; subst e2
          obtain ⟨k1, -, -⟩ := stuck_spec _ _ _ hs
          obtain ⟨l1, hl1, s1⟩ := k1 _ _ g1
          obtain ⟨l2, hl2, s2⟩ := k1 _ _ g2
          have zip : ∀ (x : Nat) (dd : Nat) (ll : List Nat), (sups ++ [c])[x]? = some dd →
              (cpls ++ [sups])[x]? = some ll → (dd, ll) ∈ (sups ++ [c]).zip (cpls ++ [sups]) := by
            intro x dd ll hd hl
            refine List.mem_iff_getElem?.mpr ⟨x, ?_⟩
            rw [List.getElem?_zip_eq_some]
            exact ⟨hd, hl⟩
          exact ⟨l1, l2, zip _ _ _ hi hl1, zip _ _ _ hj hl2,
            ((List.singleton_sublist.mpr h1).cons_cons _).trans s1,
            ((List.singleton_sublist.mpr h2).cons_cons _).trans s2⟩

/-- `(<c>, <a>, <b>)` with `<c>` above `(<b>, <a>)`. -/
example : report 4 [3, 1, 2] [[3, 2, 1, 0], [1, 0], [2, 0]] = .note 3 4 2 1 := by decide +kernel

/-- C44 for two different direct superclasses: the compiler always finds something to report. -/
theorem report_found_partial (w : World) (h : Reachable w) (s1 s2 : Nat) (hne : s1 ≠ s2)
    (cpls : List (List Nat)) (hl : ListsOf w [s1, s2] cpls) :
    report w.length [s1, s2] cpls ≠ .crash := by
  have hw := reachable_inv h
  have hcp := (superCpls_iff hw.fixed _ _).mpr hl
  have hlt := superCpls_lt hw.fixed hcp
  have e1 := List.getElem?_eq_getElem (hlt s1 (by simp))
  have e2 := List.getElem?_eq_getElem (hlt s2 (by simp))
  have hc2 : cpls = [w[s1]'(hlt s1 (by simp)) |>.fx.cpl, w[s2]'(hlt s2 (by simp)) |>.fx.cpl] := by
    refine hl.unique ?_
    simp only [ListsOf, List.map_cons, List.map_nil, hw.all e1, hw.all e2]
  generalize w[s1]'(hlt s1 (by simp)) = r1 at e1 hc2
  generalize w[s2]'(hlt s2 (by simp)) = r2 at e2 hc2
  have ok1 := hw.fixed s1 _ (get_fixeds e1)
  have ok2 := hw.fixed s2 _ (get_fixeds e2)
  obtain ⟨M1, hM1, -⟩ := ok1.head
  obtain ⟨M2, hM2, -⟩ := ok2.head
  have n1 := ok1.nodup
  have n2 := ok2.nodup
  rw [hM1] at hc2 n1
  rw [hM2] at hc2 n2
  subst hc2
  intro hcr
  unfold report at hcr
  simp only [List.cons_append, List.nil_append] at hcr
  cases hs : stuckLists (mergeFuel [s1 :: M1, s2 :: M2, [s1, s2]] + 1)
      [s1 :: M1, s2 :: M2, [s1, s2]] with
  | none => simp [hs] at hcr
  | some rest =>
    simp only [hs] at hcr
    obtain ⟨q1, q2, q3, rfl, ht⟩ := stuck_two hne _ _ _ _ _
      (⟨n1, n2, Or.inl ⟨rfl, rfl, rfl⟩⟩ : Two s1 s2 M1 M2 _ _ _) hs
    obtain ⟨-, hn, ha⟩ := stuck_spec _ _ _ hs
    obtain ⟨⟨a, b, i, j⟩, hr⟩ := witness_two hne ht hn ha
    simp only [hr] at hcr
    obtain ⟨m1, m2, t1, t2, f1, f2, g1, g2, -⟩ := witnessOuter_spec _ _ _ _ _ _ hr
    simp only [Nat.zero_add] at f1 f2
    subst f1; subst f2
    have b1 := lt_of_get g1
    have b2 := lt_of_get g2
    simp only [List.length_cons, List.length_nil] at b1 b2
    rw [List.getElem?_eq_getElem (by simpa using b1), List.getElem?_eq_getElem (by simpa using b2)]
      at hcr
    cases hcr

/-- Three classes with three pairwise orders that form a circle. -/
def circleOps : List Op :=
  [.load [⟨[0], false, 0⟩, ⟨[0], false, 0⟩, ⟨[0], false, 0⟩,
          ⟨[1, 2], false, 0⟩, ⟨[2, 3], false, 0⟩, ⟨[3, 1], false, 0⟩]]

set_option maxRecDepth 100000 in
/-- C44 fails: for three direct superclasses whose lists order `<a>` before `<b>`, `<b>` before
    `<c>` and `<c>` before `<a>`, the search for two conflicting lists finds nothing and the
    compiler fails on `heads[#f]`. -/
theorem report_found_violated : ∃ w cpls, Reachable w ∧ ListsOf w [4, 5, 6] cpls ∧
    report w.length [4, 5, 6] cpls = .crash := by
  refine ⟨run objectWorld circleOps, [[4, 1, 2, 0], [5, 2, 3, 0], [6, 3, 1, 0]], ⟨_, rfl⟩, ?_, ?_⟩
  · have h4 : allSuperclasses (run objectWorld circleOps) 4 = .ok [4, 1, 2, 0] := by decide +kernel
    have h5 : allSuperclasses (run objectWorld circleOps) 5 = .ok [5, 2, 3, 0] := by decide +kernel
    have h6 : allSuperclasses (run objectWorld circleOps) 6 = .ok [6, 3, 1, 0] := by decide +kernel
    simp only [ListsOf, List.map_cons, List.map_nil, h4, h5, h6]
  · decide +kernel

set_option maxRecDepth 100000 in
/-- C44 fails: the same happens for a class that names a direct superclass twice. -/
theorem report_found_violated_twice : ∃ w cpls, Reachable w ∧ ListsOf w [1, 1] cpls ∧
    report w.length [1, 1] cpls = .crash := by
  refine ⟨run objectWorld [.make ⟨[0], false, 0⟩], [[1, 0], [1, 0]], ⟨_, rfl⟩, ?_, ?_⟩
  · have h1 : allSuperclasses (run objectWorld [.make ⟨[0], false, 0⟩]) 1 = .ok [1, 0] := by
      decide +kernel
    simp only [ListsOf, List.map_cons, List.map_nil, h1]
  · decide +kernel

end Verif.Class
