/-
Extending the dispatch cache keeps its invariant: discrimination below a class, computing more of
the engine, and walking the engine there is.
-/
import Verif.Dispatch.Engine.Step

namespace Verif.Dispatch
open Verif.Types
section
variable {C : Type} [DecidableEq C] {K : DWorld C} {nreq : Nat} {ms0 : List (Meth C)}

/-- Same class, and no two subclass types in play. -/
theorem ord_class {a : Nat} {x y : Args C}
    (hc : classOf K.toWorld (x a) = classOf K.toWorld (y a)) {m m' : Meth C}
    (h : ∀ c d, spec K m a = .subclass c → spec K m' a = .subclass d → c = d) :
    orderSpec K (spec K m a) (spec K m' a) (x a) = orderSpec K (spec K m a) (spec K m' a) (y a) :=
  orderSpec_class hc fun c d h1 h2 => .inl (h c d h1 h2)

theorem inst_subclass (hK : DLawful K) {x : Obj C} {d : C} (h : Inst K x (.subclass d)) :
    K.sub (classOf K.toWorld x) K.classC = true := by
  cases x <;> simp_all [Inst, inst, classOf, hK.metaC]

/-- What a class leaves open is decided by the singletons and the limited types. -/
theorem sub_uniform (hK : DLawful K) (hR : Regular K nreq ms0) {a : Nat} (ha : a < nreq)
    {D : Set Nat} {Q : Args C → Prop} {args : Args C} (hU : Uniform K ms0 Q D) (hq : Q args)
    (hsub : (ponderSub K a (classOf K.toWorld (args a)) (pruneByClass K a
      (classOf K.toWorld (args a)) (live K ms0 D args))).subclassP = false) (z : Args C) :
    Uniform K ms0 (fun y => ((Q y ∧ classOf K.toWorld (y a) = classOf K.toWorld (args a)) ∧
      y a ∉ (ponderSub K a (classOf K.toWorld (args a)) (pruneByClass K a
      (classOf K.toWorld (args a)) (live K ms0 D args))).singletons) ∧
      ∀ t ∈ (ponderSub K a (classOf K.toWorld (args a)) (pruneByClass K a
      (classOf K.toWorld (args a)) (live K ms0 D args))).others,
        (Inst K (y a) t ↔ Inst K (z a) t)) (insert a D) := by
  obtain ⟨s1, s2, s3⟩ := ponderSub_spec (K := K) a (classOf K.toWorld (args a)) (pruneByClass K a
      (classOf K.toWorld (args a)) (live K ms0 D args))
  generalize hi : ponderSub K a (classOf K.toWorld (args a)) (pruneByClass K a
      (classOf K.toWorld (args a)) (live K ms0 D args)) = i at *
  have hprune : ∀ y, Q y → classOf K.toWorld (y a) = classOf K.toWorld (args a) → ∀ m ∈ ms0,
      App K D y m → Inst K (y a) (spec K m a) →
      m ∈ pruneByClass K a (classOf K.toWorld (args a)) (live K ms0 D args) := by
    intro y hy hc m hm hap hin
    unfold pruneByClass
    rw [List.mem_filter, mem_live]
    refine ⟨⟨hm, hU.app y args hy hq m hm hap⟩, ?_⟩
    rw [← hc]
    exact groundedHas_some hK (hR.fine ha hm) hin
  refine hU.extend (fun x hx => hx.1.1.1) ?_ ?_ ?_
  · intro x y hx hy m hm hap hin
    have hmp := hprune x hx.1.1.1 hx.1.1.2 m hm hap hin
    rw [inst_members (hR.fine ha hm)] at hin ⊢
    obtain ⟨u, hu, hiu⟩ := hin
    refine ⟨u, hu, ?_⟩
    have hfu := fine_member (hR.fine ha hm) hu
    have lim : IsLim u → Inst K (y a) u := by
      intro hl
      have : u ∈ i.others := (s3 u).2 ⟨m, hmp, hu, hl, by
        rw [← hx.1.1.2]; exact groundedHas_some hK hfu hiu⟩
      exact (hy.2 u this).2 ((hx.2 u this).1 hiu)
    cases u with
    | cls d =>
      have e : classOf K.toWorld (y a) = classOf K.toWorld (x a) := hy.1.1.2.trans hx.1.1.2.symm
      simpa [Inst, inst, e] using hiu
    | single o =>
      simp only [Inst, inst, Option.some.injEq, decide_eq_true_eq] at hiu
      exact absurd ((s2 (x a)).2 ⟨m, hmp, by rwa [hiu], hx.1.1.2⟩) hx.1.2
    | subclass d =>
      have := s1.2 ⟨m, hmp, d, hu⟩
      rw [hsub] at this; cases this
    | union p q => exact absurd rfl (members_leaf hu p q)
    | limColl c e s d => exact absurd rfl ((hfu _ (by simp [Ty.members])).1 c e s d)
    | limInt b => exact lim trivial
    | limFun b => exact lim trivial
  · intro x y hx hy m hm m' hm' hap hap' hin hin'
    refine ord_class (hx.1.1.2.trans hy.1.1.2.symm) fun c d h1 h2 => ?_
    have := s1.2 ⟨m, hprune x hx.1.1.1 hx.1.1.2 m hm hap hin, c, by rw [h1]; simp [Ty.members]⟩
    rw [hsub] at this; cases this
  · intro x y hx hy m hm _ _ _
    rw [hx.1.1.2, hy.1.1.2]

/-- Discrimination below a class. -/
theorem wrapSub_good (hK : DLawful K) (hR : Regular K nreq ms0) {a : Nat} (ha : a < nreq)
    {D : Set Nat} {Q : Args C → Prop} {args : Args C} (hU : Uniform K ms0 Q D) (hq : Q args)
    (hp : ∀ x, Q x → Prop1 K (x a)) (nextd : Node C)
    (hnext : ∀ Q' : Args C → Prop,
      (∀ x, Q' x → Q x ∧ classOf K.toWorld (x a) = classOf K.toWorld (args a)) → Q' args →
      Uniform K ms0 Q' (insert a D) → WF K nreq ms0 nextd Q' (insert a D)) :
    ∃ n, wrapSub K a (args a) (pruneByClass K a (classOf K.toWorld (args a))
        (live K ms0 D args)) nextd = some n ∧
      WF K nreq ms0 n (fun y => Q y ∧ classOf K.toWorld (y a) = classOf K.toWorld (args a))
        (insert a D) ∧ run K args n = run K args nextd := by
  have huni := sub_uniform hK hR ha hU hq
  obtain ⟨s1, s2, s3⟩ := ponderSub_spec (K := K) a (classOf K.toWorld (args a)) (pruneByClass K a
      (classOf K.toWorld (args a)) (live K ms0 D args))
  simp only [wrapSub]
  generalize hi : ponderSub K a (classOf K.toWorld (args a)) (pruneByClass K a
      (classOf K.toWorld (args a)) (live K ms0 D args)) = i at *
  have hmem : ∀ m ∈ pruneByClass K a (classOf K.toWorld (args a)) (live K ms0 D args),
      m ∈ ms0 ∧ (groundedHas K (classOf K.toWorld (args a)) (spec K m a)).1 = true := by
    intro m hm
    simp only [pruneByClass, List.mem_filter, mem_live] at hm
    exact ⟨hm.1.1, hm.2⟩
  have hknown : ∀ o, Uniform K ms0 (fun x => (Q x ∧
      classOf K.toWorld (x a) = classOf K.toWorld (args a)) ∧ x a = o) (insert a D) := fun o =>
    hU.known (fun x hx => hx.1.1) fun x y hx hy => hx.2.trans hy.2.symm
  have hDa : insert a (insert a D) = insert a D := Set.insert_eq_of_mem (Set.mem_insert a D)
  by_cases hA : (i.subclassP || (decide (i.singletons ≠ []) && K.sub (classOf K.toWorld (args a))
      K.classC)) = true
  · -- classes as keys
    rw [if_pos hA]
    have hcls : K.sub (classOf K.toWorld (args a)) K.classC = true := by
      rcases Bool.or_eq_true_iff.1 hA with h | h
      · obtain ⟨m, hm, d, hd⟩ := s1.1 h
        obtain ⟨hm0, hg⟩ := hmem m hm
        have hnu : Leaf (spec K m a) := by
          intro p q e
          exact hR.flat a ha m hm0 p q e d hd
        rw [members_self hnu] at hd
        simp at hd
        rw [← hd] at hg
        simpa [groundedHas, hasInstances] using hg
      · exact (Bool.and_eq_true_iff.1 h).2
    have hobj : ∀ x, Q x → classOf K.toWorld (x a) = classOf K.toWorld (args a) →
        isClassObj (x a) = true := by
      intro x hx hc
      obtain ⟨d, hd⟩ := hp x hx (by rw [hc]; exact hcls)
      rw [hd]; rfl
    rw [if_pos (hobj args hq rfl)]
    refine ⟨_, rfl, ?_, by simp [run, runTbl, keyOf]⟩
    simp only [WF, WFT, hDa]
    refine ⟨ha, ⟨.inr ?_, trivial⟩, by simp, ?_, by simp, by simp⟩
    · exact hnext _ (fun x hx => hx.1) ⟨⟨hq, rfl⟩, rfl⟩ (hknown (args a))
    · exact fun _ => ⟨fun x hx => hobj x hx.1 hx.2, hknown⟩
  rw [if_neg hA]
  have hsubF : i.subclassP = false := by
    cases h : i.subclassP
    · rfl
    · simp [h] at hA
  have hS : ∀ s, s ∈ i.others → Fine K s := by
    intro s hs
    obtain ⟨m, hm, hu, -⟩ := (s3 s).1 hs
    exact fine_member (hR.fine ha (hmem m hm).1) hu
  have hlim : ∀ s, s ∈ i.others → ∃ c, Limited K s c ∧
      (K.sub c (classOf K.toWorld (args a)) = true ∨ K.sub (classOf K.toWorld (args a)) c = true) := by
    intro s hs
    obtain ⟨m, hm, hu, hl, hg⟩ := (s3 s).1 hs
    cases s with
    | limInt b =>
      exact ⟨_, .int b, by simpa [groundedHas, hasInstances] using hg⟩
    | limFun b =>
      exact ⟨_, .fn b, by simpa [groundedHas, hasInstances] using hg⟩
    | limColl c e s d => exact absurd rfl ((hS _ hs _ (by simp [Ty.members])).1 c e s d)
    | _ => cases hl
  have hat : ∀ s, s ∈ i.others → At K ms0 a s := by
    intro s hs
    obtain ⟨m, hm, hu, -⟩ := (s3 s).1 hs
    exact ⟨m, (hmem m hm).1, hu⟩
  have hS2 : ∀ s u, s ∈ i.others → u ∈ i.others → Sub K s u → Sub K u s := by
    intro s u hs hu h
    obtain ⟨c, hc, -⟩ := hlim s hs
    obtain ⟨d, hd, -⟩ := hlim u hu
    exact hR.unrelated a ha s u c d (hat s hs) (hat u hu) hc hd h
  have hun := huni hsubF
  -- the type tests
  have hnest : args a ∉ i.singletons →
      WF K nreq ms0 (nestIfs K a (args a) i.others [] [] nextd)
        (fun y => (Q y ∧ classOf K.toWorld (y a) = classOf K.toWorld (args a)) ∧
          y a ∉ i.singletons) (insert a D) ∧
      run K args (nestIfs K a (args a) i.others [] [] nextd) = run K args nextd := by
    intro hns
    constructor
    · refine nestIfs_wf hK ha (Set.mem_insert a D) args (· ∈ i.others) hS hS2 i.others [] [] nextd _
        (fun s h => h) (by simp) (by simp) (by simp) (by simp) hun (.inr ?_)
      exact hnext _ (fun x hx => hx.1.1) ⟨⟨⟨hq, rfl⟩, hns⟩, fun t _ => Iff.rfl⟩ (hun args)
    · exact nestIfs_run hK args (· ∈ i.others) hS hS2 i.others [] [] nextd (fun s h => h) (by simp)
        (by simp) (by simp) (by simp)
  by_cases hB : i.singletons ≠ []
  · -- singletons as keys
    rw [if_pos hB]
    have hoth : i.others = [] := by
      rw [List.eq_nil_iff_forall_not_mem]
      intro u hu
      obtain ⟨c, hc, hcc⟩ := hlim u hu
      obtain ⟨o, ho⟩ := List.exists_mem_of_ne_nil _ hB
      obtain ⟨m, hm, hmo, hoc⟩ := (s2 o).1 ho
      have := hR.noMix a ha o u c ⟨m, (hmem m hm).1, hmo⟩ (hat u hu) hc
      rw [hoc] at this
      rcases hcc with h | h
      · rw [this.2] at h; cases h
      · rw [this.1] at h; cases h
    by_cases hx : args a ∈ i.singletons
    · rw [if_pos hx]
      refine ⟨_, rfl, ?_, by simp only [run, keyOf]; exact (singlesTbl_run (key := args a) _ _).1 hx⟩
      simp only [WF, hDa]
      refine ⟨ha, singlesTbl_wf ?_ _ _ ?_, by simp, by simp, by simp, fun _ => ?_⟩
      · rw [hDa]; exact hknown
      · rw [hDa]; exact hnext _ (fun x hx => hx.1) ⟨⟨hq, rfl⟩, rfl⟩ (hknown (args a))
      · refine (hun args).mono fun x hx => ⟨⟨hx.1, ?_⟩, by simp [hoth]⟩
        simpa [singlesTbl_hasKey] using hx.2
    · rw [if_neg hx]
      obtain ⟨hw, hr⟩ := hnest hx
      refine ⟨_, rfl, ?_, ?_⟩
      · simp only [WF, hDa]
        refine ⟨ha, singlesTbl_wf ?_ _ _ ?_, by simp, by simp, by simp, fun _ => ?_⟩
        · rw [hDa]; exact hknown
        · rw [hDa]; simp only [WF]; exact hknown (args a)
        · refine WF_mono _ (fun x hx => ⟨hx.1, ?_⟩) hw
          simpa [singlesTbl_hasKey] using hx.2
      · simp only [run, keyOf]
        rw [(singlesTbl_run (key := args a) _ _).2 hx, hr]
  · rw [if_neg hB]
    push Not at hB
    have hx : args a ∉ i.singletons := by simp [hB]
    obtain ⟨hw, hr⟩ := hnest hx
    exact ⟨_, rfl, WF_mono _ (fun x hx => ⟨hx, by simp [hB]⟩) hw, hr⟩

/-! ### computing more of the engine -/

theorem plan_cases (p : Pondered C) :
    (plan p = .skip ∧ p.force = false ∧ p.allSub = true) ∨
    (∃ t, plan p = .test t p.someSub ∧ p.force = false ∧ p.exc = .one t) ∨
    (plan p = .byClass ∧ p.secondary = false) ∨ plan p = .byClassSub := by
  unfold plan
  cases h1 : p.force <;> cases h2 : p.allSub <;> cases h3 : p.exc <;> cases h4 : p.secondary <;>
    simp

theorem test_uniform (hK : DLawful K) (hR : Regular K nreq ms0) {a : Nat} (ha : a < nreq)
    {D : Set Nat} {Q Q' : Args C → Prop} {args : Args C} (hU : Uniform K ms0 Q D) (hq : Q args)
    (hQ : ∀ x, Q' x → Q x) {t : Ty C} (hQt : ∀ x y, Q' x → Q' y → Inst K (x a) t → Inst K (y a) t)
    (hf : ∀ m ∈ live K ms0 D args, requiresClass m a = false)
    (ht : ∀ m ∈ live K ms0 D args, Sub K (.cls K.objC) (spec K m a) ∨ SameInst K (spec K m a) t) :
    Uniform K ms0 Q' (insert a D) := by
  have hl : ∀ x, Q' x → ∀ m ∈ ms0, App K D x m → m ∈ live K ms0 D args :=
    fun x hx m hm h => mem_live.2 ⟨hm, hU.app x args (hQ x hx) hq m hm h⟩
  have hin : ∀ x y, Q' x → Q' y → ∀ m ∈ ms0, App K D x m → Inst K (x a) (spec K m a) →
      Inst K (y a) (spec K m a) := by
    intro x y hx hy m hm hap hi
    rcases ht m (hl x hx m hm hap) with h | h
    · exact top_inst hK (hR.fine ha hm) h _
    · exact (h _).2 (hQt x y hx hy ((h _).1 hi))
  refine hU.extend hQ hin ?_ ?_
  · intro x y hx hy m hm m' hm' hap hap' hi hi'
    exact orderSpec_test hK (hR.fine ha hm) (hR.fine ha hm') (ht m (hl x hx m hm hap))
      (ht m' (hl x hx m' hm' hap')) hi (hin x y hx hy m hm hap hi) hi'
      (hin x y hx hy m' hm' hap' hi')
  · intro x y hx hy m hm hap hi hacc
    have := hf m (hl x hx m hm hap)
    simp [requiresClass, hacc] at this
    exact hR.accFixed m hm a hacc this _ _ hi (hin x y hx hy m hm hap hi)

theorem class_uniform (hK : DLawful K) (hR : Regular K nreq ms0) {a : Nat} (ha : a < nreq)
    {D : Set Nat} {Q Q' : Args C → Prop} {args : Args C} (hU : Uniform K ms0 Q D) (hq : Q args)
    (hp : ∀ x, Q x → Prop1 K (x a)) (hQ : ∀ x, Q' x → Q x)
    (hc : ∀ x, Q' x → classOf K.toWorld (x a) = classOf K.toWorld (args a))
    (hm : ∀ m ∈ live K ms0 D args, secondary K (classOf K.toWorld (args a)) (spec K m a) = false ∨
      ((groundedHas K (classOf K.toWorld (args a)) (spec K m a)).1 = true →
        (groundedHas K (classOf K.toWorld (args a)) (spec K m a)).2 = true)) :
    Uniform K ms0 Q' (insert a D) := by
  have hl : ∀ x, Q' x → ∀ m ∈ ms0, App K D x m → m ∈ live K ms0 D args :=
    fun x hx m hm h => mem_live.2 ⟨hm, hU.app x args (hQ x hx) hq m hm h⟩
  have hcc : ∀ x y, Q' x → Q' y → classOf K.toWorld (x a) = classOf K.toWorld (y a) :=
    fun x y hx hy => (hc x hx).trans (hc y hy).symm
  refine hU.extend hQ ?_ ?_ ?_
  · intro x y hx hy m hm0 hap hi
    rcases hm m (hl x hx m hm0 hap) with h | h
    · rw [← hc x hx] at h
      exact (not_secondary hK (hp x (hQ x hx)) (hp y (hQ y hy)) (hcc x y hx hy)
        (hR.fine ha hm0) h).1 hi
    · rw [← hc x hx] at h
      exact (not_partial hK (hp x (hQ x hx)) (hp y (hQ y hy)) (hcc x y hx hy)
        (hR.fine ha hm0) h).1 hi
  · intro x y hx hy m hm0 m' hm0' hap hap' hi hi'
    refine ord_class (hcc x y hx hy) fun c d h1 h2 => ?_
    have key : ∀ m ∈ ms0, App K D x m → ∀ e, spec K m a = .subclass e →
        Inst K (x a) (spec K m a) → e = K.objC := by
      intro m hm0 hap e he hi
      rw [he] at hi
      have hcl := inst_subclass hK hi
      rw [hc x hx] at hcl
      rcases hm m (hl x hx m hm0 hap) with h | h
      · rw [he] at h
        simpa [secondary, groundedHas, hasInstances, hcl] using h
      · rw [he] at h
        simpa [groundedHas, hasInstances, hcl] using h
    rw [key m hm0 hap c h1 hi, key m' hm0' hap' d h2 hi']
  · intro x y hx hy m _ _ _ _
    rw [hcc x y hx hy]

theorem computeMore_good (hK : DLawful K) (hR : Regular K nreq ms0) {args : Args C} :
    ∀ (todo : List Nat) (D : Set Nat) (Q : Args C → Prop), Cov nreq todo D → Uniform K ms0 Q D →
    Q args → (∀ x, Q x → ProperArgs K nreq x) →
    ∃ r, computeMore K nreq args todo (live K ms0 D args) = some r ∧
      Good K nreq ms0 Q D args r
  | [], D, Q, hcov, hU, hq, _ =>
    ⟨_, rfl, terminal_good hR.accArg hcov hU hq⟩
  | a :: todo, D, Q, hcov, hU, hq, hp => by
    have ha : a < nreq := hcov.todo a (by simp)
    have hp1 : ∀ x, Q x → Prop1 K (x a) := fun x hx => hp x hx a ha
    have hf : ∀ m ∈ live K ms0 D args, Fine K (spec K m a) :=
      fun m hm => hR.fine ha (mem_live.1 hm).1
    simp only [computeMore]
    by_cases he : live K ms0 D args = []
    · rw [if_pos he]
      exact ⟨_, rfl, by simpa only [WF] using hU, fun _ => direct_empty hcov.done he, by simp⟩
    rw [if_neg he]
    have hP := ponder_spec hK a (classOf K.toWorld (args a)) (live K ms0 D args) hf
    generalize ponder K a (classOf K.toWorld (args a)) (live K ms0 D args) = p at hP
    have IH := computeMore_good hK hR (args := args) todo (insert a D)
    rcases plan_cases p with ⟨e, h1, h2⟩ | ⟨t, e, h1, h2⟩ | ⟨e, h1⟩ | e
    · -- nothing to test
      rw [e, consider_live]
      have hU' : Uniform K ms0 Q (insert a D) :=
        test_uniform hK hR ha hU hq (fun x hx => hx) (t := .cls K.objC)
          (fun x y _ _ _ => by simp [Inst, inst, hK.top]) (hP.force h1)
          (fun m hm => .inl (hP.allSub h2 m hm))
      obtain ⟨r, hr, hg⟩ := IH Q hcov.step hU' hq hp
      refine ⟨r, hr, WF_drop _ ?_ hg.1, hg.2⟩
      intro x hx m hm hap
      exact top_inst hK (hR.fine ha hm)
        (hP.allSub h2 m (mem_live.2 ⟨hm, hU.app x args hx hq m hm hap⟩)) _
    · -- one type test
      rw [e, consider_live]
      obtain ⟨⟨mt, hmt, hmte⟩, hte⟩ := hP.exc t h2
      have hUt : Uniform K ms0 (fun x => Q x ∧ Inst K (x a) t) (insert a D) :=
        test_uniform hK hR ha hU hq (fun x hx => hx.1) (t := t)
          (fun x y _ hy _ => hy.2) (hP.force h1) hte
      have hUf : Uniform K ms0 (fun x => Q x ∧ ¬ Inst K (x a) t) (insert a D) :=
        test_uniform hK hR ha hU hq (fun x hx => hx.1) (t := t)
          (fun x y hx _ h => absurd h hx.2) (hP.force h1) hte
      by_cases hi : Inst K (args a) t
      · obtain ⟨r, hr, hw, hd, hrun⟩ := IH _ hcov.step hUt ⟨hq, hi⟩ (fun x hx => hp x hx.1)
        rw [hr]
        refine ⟨_, rfl, ?_, hd, ?_⟩
        · by_cases hs : p.someSub = true
          · simp only [hs, Bool.not_true, if_pos (isInst_iff.2 hi), WF]
            exact ⟨ha, hw, hUf⟩
          · rw [Bool.not_eq_true] at hs
            simp only [hs, Bool.not_false, if_true, WF]
            refine ⟨ha, hw, fun x hx => direct_empty (D := insert a D) hcov.step.done ?_⟩
            rw [List.eq_nil_iff_forall_not_mem]
            intro m hm
            obtain ⟨hm, hap⟩ := mem_live.1 hm
            rw [app_insert] at hap
            have hml := mem_live.2 ⟨hm, hU.app x args hx.1 hq m hm hap.2⟩
            rcases hte m hml with h | h
            · exact hP.someSub hs m hml h
            · exact hx.2 ((h _).1 hap.1)
        · intro h
          rw [← hrun h]
          by_cases hs : p.someSub = true
          · simp [hs, isInst_iff.2 hi, run]
          · rw [Bool.not_eq_true] at hs
            simp only [hs, Bool.not_false, if_true, run, if_pos (isInst_iff.2 hi)]
      · obtain ⟨r, hr, hw, hd, hrun⟩ := IH _ hcov.step hUf ⟨hq, hi⟩ (fun x hx => hp x hx.1)
        have hni : ¬ isInst K.toWorld (args a) t = true := fun h => hi (isInst_iff.1 h)
        by_cases hs : p.someSub = true
        · rw [hr]
          refine ⟨_, rfl, ?_, hd, ?_⟩
          · simp only [hs, Bool.not_true, if_neg hni, WF]
            exact ⟨ha, hUt, hw⟩
          · intro h
            rw [← hrun h]
            simp [hs, hni, run]
        · rw [Bool.not_eq_true] at hs
          -- no method is left
          have hnil : ∀ x, Q x → ¬ Inst K (x a) t → live K ms0 (insert a D) x = [] := by
            intro x hx hxi
            rw [List.eq_nil_iff_forall_not_mem]
            intro m hm
            obtain ⟨hm, hap⟩ := mem_live.1 hm
            rw [app_insert] at hap
            have hml := mem_live.2 ⟨hm, hU.app x args hx hq m hm hap.2⟩
            rcases hte m hml with h | h
            · exact hP.someSub hs m hml h
            · exact hxi ((h _).1 hap.1)
          have hcm : ∀ td, computeMore K nreq args td [] = some (.absent, true) := by
            intro td
            cases td with
            | nil => simp [computeMore, terminal, sortMethods_nil]
            | cons b td => simp [computeMore]
          rw [hnil args hq hi, hcm]
          refine ⟨_, rfl, ?_, fun _ => direct_empty hcov.step.done (hnil args hq hi), by simp⟩
          simp only [hs, Bool.not_false, if_true, WF]
          exact ⟨ha, hUt, fun x hx => direct_empty hcov.step.done (hnil x hx.1 hx.2)⟩
    · -- a table by class
      rw [e, consider_live]
      have hU' : Uniform K ms0 (fun x => Q x ∧ keyOf K .byClass (x a) =
          .cls (classOf K.toWorld (args a))) (insert a D) := by
        refine class_uniform hK hR ha hU hq hp1 (fun x hx => hx.1) (fun x hx => ?_)
          fun m hm => .inl (hP.sec h1 m hm)
        simpa [keyOf] using hx.2
      obtain ⟨r, hr, hw, hd, hrun⟩ := IH _ hcov.step hU' ⟨hq, rfl⟩ (fun x hx => hp x hx.1)
      rw [hr]
      refine ⟨_, rfl, ?_, hd, fun h => ?_⟩
      · simp only [WF, WFT]
        exact ⟨ha, ⟨.inr hw, trivial⟩, fun _ => hU, by simp, by simp, by simp⟩
      · simpa [run, runTbl, keyOf] using hrun h
    · -- and more below it
      rw [e, consider_prune hK hf, consider_live]
      obtain ⟨r, hr, -, hd, hrun⟩ := IH (fun x => x = args) hcov.step
        (hU.known (fun x hx => hx ▸ hq) fun x y hx hy => by rw [hx, hy]) rfl
        (fun x hx => hx ▸ hp args hq)
      obtain ⟨n, hn, hnw, hnr⟩ := wrapSub_good hK hR ha hU hq hp1 r.1 (by
        intro Q' hQ' hqa hU'
        obtain ⟨r', hr', hg⟩ := IH Q' hcov.step hU' hqa (fun x hx => hp x (hQ' x hx).1)
        rw [hr] at hr'
        cases hr'
        exact hg.1)
      refine ⟨(.table .byClass a (.cons (.cls (classOf K.toWorld (args a))) n .nil) .absent, r.2),
        by rw [hr]; simp only [Option.bind_some]; rw [hn]; rfl, ?_, hd, fun h => ?_⟩
      · simp only [WF, WFT]
        refine ⟨ha, ⟨.inr (WF_mono _ (fun x hx => ⟨hx.1, ?_⟩) hnw), trivial⟩, fun _ => hU,
          by simp, by simp, by simp⟩
        simpa [keyOf] using hx.2
      · rw [← hrun h, ← hnr]
        simp [run, runTbl, keyOf]

/-- A class that the table has no entry for. -/
theorem classMiss_good (hK : DLawful K) (hR : Regular K nreq ms0) {args : Args C} {a : Nat}
    (ha : a < nreq) {todo : List Nat} {D : Set Nat} {Q : Args C → Prop}
    (hcov : Cov nreq todo (insert a D)) (hU : Uniform K ms0 Q D) (hq : Q args)
    (hp : ∀ x, Q x → ProperArgs K nreq x) :
    ∃ r, classMiss K nreq args a todo (live K ms0 D args) = some r ∧
      Good K nreq ms0 (fun x => Q x ∧ keyOf K .byClass (x a) = keyOf K .byClass (args a))
        (insert a D) args r := by
  have hp1 : ∀ x, Q x → Prop1 K (x a) := fun x hx => hp x hx a ha
  have hf : ∀ m ∈ live K ms0 D args, Fine K (spec K m a) :=
    fun m hm => hR.fine ha (mem_live.1 hm).1
  simp only [classMiss]
  rw [consider_prune hK hf, consider_live]
  have IH := computeMore_good hK hR (args := args) todo (insert a D)
  by_cases hacc : allAccounted K a (classOf K.toWorld (args a)) (live K ms0 D args) = true
  · have hU' : Uniform K ms0 (fun x => Q x ∧ keyOf K .byClass (x a) = keyOf K .byClass (args a))
        (insert a D) := by
      refine class_uniform hK hR ha hU hq hp1 (fun x hx => hx.1) (fun x hx => ?_)
        fun m hm => .inr fun hg => ?_
      · simpa [keyOf] using hx.2
      · simp only [allAccounted, pruneByClass, List.all_eq_true] at hacc
        exact hacc m (List.mem_filter.2 ⟨hm, hg⟩)
    obtain ⟨r, hr, hg⟩ := IH _ hcov hU' ⟨hq, rfl⟩ (fun x hx => hp x hx.1)
    exact ⟨r, by rw [hr]; simp [hacc], hg⟩
  · obtain ⟨r, hr, -, hd, hrun⟩ := IH (fun x => x = args) hcov
      (hU.known (fun x hx => hx ▸ hq) fun x y hx hy => by rw [hx, hy]) rfl
      (fun x hx => hx ▸ hp args hq)
    obtain ⟨n, hn, hnw, hnr⟩ := wrapSub_good hK hR ha hU hq hp1 r.1 (by
      intro Q' hQ' hqa hU'
      obtain ⟨r', hr', hg⟩ := IH Q' hcov hU' hqa (fun x hx => hp x (hQ' x hx).1)
      rw [hr] at hr'
      cases hr'
      exact hg.1)
    refine ⟨(n, r.2), ?_, WF_mono _ (fun x hx => ⟨hx.1, by simpa [keyOf] using hx.2⟩) hnw, hd,
      fun h => by rw [← hrun h, ← hnr]⟩
    rw [hr]; simp only [Option.bind_some, hacc]; rw [hn]; simp

/-! ### walking the engine there is -/

theorem walkTbl_hasKey {args : Args C} {a : Nat} {key : Obj C} {cls : Bool} {todo : List Nat}
    {ms : List (Meth C)} {mi : Option (Node C × Bool)} {o : Obj C} : ∀ (t : Tbl C) (r),
    hasKey key t = true → walkTbl K nreq args a key cls todo ms mi t = some r →
    hasKey o r.1 = hasKey o t
  | .nil, r, h, _ => by simp [hasKey] at h
  | .cons k n rest, r, h, hw => by
    simp only [walkTbl] at hw
    by_cases hk : k = key
    · simp only [hk, if_true] at hw
      have key : ∀ (w : Option (Node C × Bool)),
          (w.map fun r => ((.cons key r.1 rest : Tbl C), r.2)) = some r →
          hasKey o r.1 = hasKey o (.cons k n rest) := by
        intro w hw
        obtain ⟨r', -, rfl⟩ := Option.map_eq_some_iff.1 hw
        simp [hasKey, hk]
      cases cls
      · exact key _ (by simpa using hw)
      · exact key _ (by simpa using hw)
    · simp only [if_neg hk] at hw
      obtain ⟨r', h', rfl⟩ := Option.map_eq_some_iff.1 hw
      have hkr : hasKey key rest = true := by simpa [hasKey, hk] using h
      simp [hasKey, walkTbl_hasKey rest r' hkr h']

mutual
theorem walk_good (hK : DLawful K) (hR : Regular K nreq ms0) {args : Args C} :
    ∀ (n : Node C) (todo : List Nat) (D : Set Nat) (Q : Args C → Prop), Cov nreq todo D →
    WF K nreq ms0 n Q D → Q args → (∀ x, Q x → ProperArgs K nreq x) →
    ∃ r, walk K nreq args n todo (live K ms0 D args) = some r ∧ Good K nreq ms0 Q D args r
  | .absent, todo, D, Q, hcov, h, hq, hp => by
    simp only [WF] at h
    simp only [walk]
    exact computeMore_good hK hR todo D Q hcov h hq hp
  | .inapplicable, todo, D, Q, _, h, hq, _ => by
    refine ⟨_, by simp only [walk]; rfl, h, by simp, fun _ => ?_⟩
    simp only [WF] at h
    simp [run, outcome, h args hq]
  | .leaf o m, todo, D, Q, _, h, hq, _ => by
    refine ⟨_, by simp only [walk]; rfl, h, by simp, fun _ => ?_⟩
    simp only [WF] at h
    simp [run, outcome, h args hq]
  | .ifType a t thn els, todo, D, Q, hcov, h, hq, hp => by
    simp only [WF] at h
    obtain ⟨ha, h1, h2⟩ := h
    simp only [walk, consider_live]
    by_cases hi : Inst K (args a) t
    · rw [if_pos (isInst_iff.2 hi)]
      obtain ⟨r, hr, hw, hd, hrun⟩ := walk_good hK hR thn _ _ _ (hcov.filter ha) h1 ⟨hq, hi⟩
        (fun x hx => hp x hx.1)
      rw [hr]
      refine ⟨_, rfl, ?_, hd, fun h => ?_⟩
      · simp only [WF]; exact ⟨ha, hw, h2⟩
      · rw [← hrun h]; simp only [run, if_pos (isInst_iff.2 hi)]
    · rw [if_neg (fun h => hi (isInst_iff.1 h))]
      obtain ⟨r, hr, hw, hd, hrun⟩ := walk_good hK hR els _ _ _ (hcov.filter ha) h2 ⟨hq, hi⟩
        (fun x hx => hp x hx.1)
      rw [hr]
      refine ⟨_, rfl, ?_, hd, fun h => ?_⟩
      · simp only [WF]; exact ⟨ha, h1, hw⟩
      · rw [← hrun h]; simp only [run, if_neg (fun h => hi (isInst_iff.1 h))]
  | .table .byClass a t d, todo, D, Q, hcov, h, hq, hp => by
    simp only [WF] at h
    obtain ⟨ha, h1, h2, -, -, -⟩ := h
    have hf : ∀ m ∈ live K ms0 D args, Fine K (spec K m a) :=
      fun m hm => hR.fine ha (mem_live.1 hm).1
    simp only [walk]
    obtain ⟨r, hr, hw, hd, hrun⟩ := walkTbl_good hK hR .byClass a
      (pruneByClass K a (classOf K.toWorld (args a)) (live K ms0 D args))
      (classMiss K nreq args a (todo.filter (· ≠ a)) (live K ms0 D args)) t
      (todo.filter (· ≠ a)) D Q (hcov.filter ha) h1 hq hp
      (by rw [if_pos rfl, consider_prune hK hf, consider_live])
      (.inr (classMiss_good hK hR ha (hcov.filter ha) (h2 trivial) hq hp))
    refine ⟨(.table .byClass a r.1 .absent, r.2), ?_, ?_, hd, fun h => ?_⟩
    · have : (decide (Kind.byClass = Kind.byClass)) = true := rfl
      rw [this] at hr
      simp only [keyOf] at hr
      rw [hr]; rfl
    · simp only [WF]; exact ⟨ha, hw, fun _ => h2 trivial, by simp, by simp, by simp⟩
    · simp only [run]; exact hrun h _
  | .table .bySingleton a t d, todo, D, Q, hcov, h, hq, hp => by
    simp only [WF] at h
    obtain ⟨ha, h1, -, h2, -, -⟩ := h
    simp only [walk, consider_live]
    rw [if_pos ((h2 trivial).1 args hq)]
    obtain ⟨r, hr, hw, hd, hrun⟩ := walkTbl_good hK hR .bySingleton a
      (live K ms0 (insert a D) args)
      (computeMore K nreq args (todo.filter (· ≠ a)) (live K ms0 (insert a D) args)) t
      (todo.filter (· ≠ a)) D Q (hcov.filter ha) h1 hq hp (by simp)
      (.inr (computeMore_good hK hR _ _ _ (hcov.filter ha) ((h2 trivial).2 (args a)) ⟨hq, rfl⟩
        (fun x hx => hp x hx.1)))
    refine ⟨(.table .bySingleton a r.1 .absent, r.2), ?_, ?_, hd, fun h => ?_⟩
    · have : (decide (Kind.bySingleton = Kind.byClass)) = false := rfl
      rw [this] at hr
      simp only [keyOf] at hr
      rw [hr]; rfl
    · simp only [WF]; exact ⟨ha, hw, by simp, fun _ => h2 trivial, by simp, by simp⟩
    · simp only [run]; exact hrun h _
  | .table .singles a t d, todo, D, Q, hcov, h, hq, hp => by
    simp only [WF] at h
    obtain ⟨ha, h1, -, -, -, h2⟩ := h
    simp only [walk, consider_live]
    by_cases hk : hasKey (args a) t = true
    · rw [if_pos hk]
      obtain ⟨r, hr, hw, hd, hrun⟩ := walkTbl_good hK hR .singles a
        (live K ms0 (insert a D) args) none t
        (todo.filter (· ≠ a)) D Q (hcov.filter ha) h1 hq hp (by simp) (.inl ⟨by simp, hk⟩)
      have : (decide (Kind.singles = Kind.byClass)) = false := rfl
      rw [this] at hr
      simp only [keyOf] at hr
      refine ⟨(.table .singles a r.1 d, r.2), by rw [hr]; rfl, ?_, hd, fun h => ?_⟩
      · simp only [WF]
        refine ⟨ha, hw, by simp, by simp, by simp, fun _ => ?_⟩
        refine WF_mono _ (fun x hx => ⟨hx.1, ?_⟩) (h2 trivial)
        rw [← hx.2]; exact (walkTbl_hasKey t r hk hr).symm
      · simp only [run]; exact hrun h _
    · rw [if_neg hk]
      obtain ⟨r, hr, hw, hd, hrun⟩ := walk_good hK hR d _ _ _ (hcov.filter ha) (h2 trivial)
        ⟨hq, by simpa using hk⟩ (fun x hx => hp x hx.1)
      rw [hr]
      refine ⟨_, rfl, ?_, hd, fun h => ?_⟩
      · simp only [WF]; exact ⟨ha, h1, by simp, by simp, by simp, fun _ => hw⟩
      · rw [← hrun h]
        simp only [run, keyOf]
        rw [runTbl_noKey t (by simpa using hk)]
theorem walkTbl_good (hK : DLawful K) (hR : Regular K nreq ms0) {args : Args C} (k : Kind) (a : Nat)
    (ms : List (Meth C)) (mi : Option (Node C × Bool)) :
    ∀ (t : Tbl C) (todo : List Nat) (D : Set Nat) (Q : Args C → Prop),
    Cov nreq todo (insert a D) →
    WFT K nreq ms0 k a t Q D → Q args → (∀ x, Q x → ProperArgs K nreq x) →
    (if k = .byClass then consider K a (args a) ms else ms) = live K ms0 (insert a D) args →
    ((k ≠ .byClass ∧ hasKey (keyOf K k (args a)) t = true) ∨ ∃ r, mi = some r ∧
      Good K nreq ms0 (fun x => Q x ∧ keyOf K k (x a) = keyOf K k (args a)) (insert a D) args r) →
    ∃ r, walkTbl K nreq args a (keyOf K k (args a)) (decide (k = .byClass)) todo ms mi t = some r ∧
      WFT K nreq ms0 k a r.1 Q D ∧ (r.2 = true → direct K nreq ms0 args = .inapplicable) ∧
      (r.2 = false → ∀ d, outcome (runTbl K args (keyOf K k (args a)) r.1 d) =
        some (direct K nreq ms0 args))
  | .nil, todo, D, Q, hcov, h, hq, hp, hms, hmi => by
    rcases hmi with ⟨-, h'⟩ | ⟨r, rfl, hw, hd, hrun⟩
    · simp [hasKey] at h'
    · refine ⟨_, by simp only [walkTbl, Option.map_some]; rfl, ?_, hd, fun h d => ?_⟩
      · simp only [WFT]; exact ⟨.inr hw, trivial⟩
      · simp only [runTbl, if_true]; exact hrun h
  | .cons key n rest, todo, D, Q, hcov, h, hq, hp, hms, hmi => by
    simp only [WFT] at h
    simp only [walkTbl]
    by_cases hk : key = keyOf K k (args a)
    · rw [if_pos hk]
      have fin : ∀ r, Good K nreq ms0 (fun x => Q x ∧ keyOf K k (x a) = key) (insert a D) args r →
          WFT K nreq ms0 k a (.cons key r.1 rest) Q D ∧
          (r.2 = true → direct K nreq ms0 args = .inapplicable) ∧
          (r.2 = false → ∀ d, outcome (runTbl K args (keyOf K k (args a)) (.cons key r.1 rest) d) =
            some (direct K nreq ms0 args)) := by
        rintro r ⟨hw, hd, hrun⟩
        refine ⟨by simp only [WFT]; exact ⟨.inr hw, h.2⟩, hd, fun h d => ?_⟩
        simp only [runTbl, if_pos hk]; exact hrun h
      by_cases hc : k = .byClass
      · simp only [hc, decide_true, if_true]
        by_cases hn : n = .absent
        · rw [if_pos hn]
          rcases hmi with ⟨h', -⟩ | ⟨r, rfl, hg⟩
          · exact absurd hc h'
          · rw [← hk] at hg
            refine ⟨_, rfl, ?_⟩
            have := fin r hg
            simpa [hc] using this
        · rw [if_neg hn]
          rw [if_pos hc] at hms
          obtain ⟨r, hr, hg⟩ := walk_good hK hR n todo (insert a D) _ hcov
            (h.1.resolve_left fun h => hn h.2) ⟨hq, hk.symm⟩ (fun x hx => hp x hx.1)
          rw [hms, hr]
          refine ⟨_, rfl, ?_⟩
          have := fin r hg
          simpa [hc] using this
      · simp only [hc, decide_false]
        rw [if_neg hc] at hms
        obtain ⟨r, hr, hg⟩ := walk_good hK hR n todo (insert a D) _ hcov
          (h.1.resolve_left fun h => hc h.1) ⟨hq, hk.symm⟩ (fun x hx => hp x hx.1)
        rw [hms, hr]
        exact ⟨_, rfl, fin r hg⟩
    · rw [if_neg hk]
      obtain ⟨r, hr, hw, hd, hrun⟩ := walkTbl_good hK hR k a ms mi rest todo D Q hcov h.2 hq hp hms
        (hmi.imp (fun h => ⟨h.1, by simpa [hasKey, hk] using h.2⟩) id)
      rw [hr]
      refine ⟨_, rfl, ?_, hd, fun h' d => ?_⟩
      · simp only [WFT]; exact ⟨h.1, hw⟩
      · simp only [runTbl, if_neg hk]; exact hrun h' d
theorem runTbl_noKey {args : Args C} {key : Obj C} {d : Node C} : ∀ (t : Tbl C),
    hasKey key t = false → runTbl K args key t d = d
  | .nil, _ => by simp [runTbl]
  | .cons k n rest, h => by
    simp only [hasKey, Bool.or_eq_false_iff, decide_eq_false_iff_not] at h
    simp only [runTbl, if_neg h.1]
    exact runTbl_noKey rest h.2
end

mutual
/-- The engine only gives right answers. -/
theorem run_sound {args : Args C} : ∀ (n : Node C) (D : Set Nat) (Q : Args C → Prop),
    WF K nreq ms0 n Q D → Q args → ∀ o, outcome (run K args n) = some o →
    o = direct K nreq ms0 args
  | .absent, _, _, _, _, o, ho => by simp [run, outcome] at ho
  | .inapplicable, _, _, h, hq, o, ho => by
    simp only [WF] at h
    simp [run, outcome] at ho
    rw [h args hq, ho]
  | .leaf l m, _, _, h, hq, o, ho => by
    simp only [WF] at h
    simp [run, outcome] at ho
    rw [h args hq, ho]
  | .ifType a t thn els, D, Q, h, hq, o, ho => by
    simp only [WF] at h
    simp only [run] at ho
    by_cases hi : Inst K (args a) t
    · rw [if_pos (isInst_iff.2 hi)] at ho
      exact run_sound thn _ _ h.2.1 ⟨hq, hi⟩ o ho
    · rw [if_neg (fun h => hi (isInst_iff.1 h))] at ho
      exact run_sound els _ _ h.2.2 ⟨hq, hi⟩ o ho
  | .table k a t d, D, Q, h, hq, o, ho => by
    simp only [WF] at h
    obtain ⟨ha, h1, -, -, h3, h4⟩ := h
    simp only [run] at ho
    refine runTbl_sound k a t D Q h1 hq (run K args d) ?_ o ho
    intro hk o' ho'
    by_cases hs : k = .singles
    · subst hs
      exact run_sound d _ _ (h4 rfl) ⟨hq, by simpa [keyOf] using hk⟩ o' ho'
    · rw [h3 hs] at ho'
      simp [run, outcome] at ho'
theorem runTbl_sound {args : Args C} (k : Kind) (a : Nat) : ∀ (t : Tbl C) (D : Set Nat)
    (Q : Args C → Prop), WFT K nreq ms0 k a t Q D → Q args → ∀ d,
    (hasKey (keyOf K k (args a)) t = false → ∀ o, outcome d = some o →
      o = direct K nreq ms0 args) →
    ∀ o, outcome (runTbl K args (keyOf K k (args a)) t d) = some o → o = direct K nreq ms0 args
  | .nil, _, _, _, _, d, hd, o, ho => by
    simp only [runTbl] at ho
    exact hd (by simp [hasKey]) o ho
  | .cons key n rest, D, Q, h, hq, d, hd, o, ho => by
    simp only [WFT] at h
    simp only [runTbl] at ho
    by_cases hk : key = keyOf K k (args a)
    · rw [if_pos hk] at ho
      rcases h.1 with ⟨-, rfl⟩ | h1
      · simp [run, outcome] at ho
      · exact run_sound n _ _ h1 ⟨hq, hk.symm⟩ o ho
    · rw [if_neg hk] at ho
      exact runTbl_sound k a rest D Q h.2 hq d
        (fun hkr => hd (by simp [hasKey, hk, hkr])) o ho
end

end
end Verif.Dispatch
