/-
Helper lemmas for the dispatch cache: what the questions asked about specializers tell.
-/
import Verif.Dispatch.Engine.Spec
import Verif.Dispatch.Order.Lemmas
import Mathlib.Data.Set.Insert

namespace Verif.Dispatch
open Verif.Types
variable {C : Type} [DecidableEq C] {K : DWorld C}

/-- Types without the corners excluded by `Regular`. -/
def Fine (K : DWorld C) (t : Ty C) : Prop :=
  ∀ u ∈ t.members, (∀ c e s d, u ≠ .limColl c e s d) ∧ u ≠ .subclass K.classC ∧
    ∀ m M, u = .limInt (.both m M) → m.toInt ≤ M.toInt

theorem fine_union {a b : Ty C} (h : Fine K (.union a b)) : Fine K a ∧ Fine K b :=
  ⟨fun u hu => h u (by simp [Ty.members, hu]), fun u hu => h u (by simp [Ty.members, hu])⟩

theorem inst_union {x : Obj C} {a b : Ty C} : Fine K a →
    (Inst K x (.union a b) ↔ Inst K x a ∨ Inst K x b) := by
  intro ha
  have key : ∀ t : Ty C, Fine K t → inst K.toWorld x t ≠ none := by
    intro t
    induction t using Ty.rec (motive_2 := fun _ => True) with
    | union a b iha ihb =>
      intro h; simp only [inst]; exact orO_isSome (iha (fine_union h).1) (ihb (fine_union h).2)
    | limColl c e s d => intro h; exact absurd rfl ((h _ (by simp [Ty.members])).1 c e s d)
    | cls | single | limInt | subclass | limFun => intro _; cases x <;> simp [inst]
    | _ => trivial
  have hn := key a ha
  simp only [Inst, inst]
  rcases h : inst K.toWorld x a with _ | _ | _
  · exact absurd h hn
  · simp [orO]
  · simp [orO]

theorem inst_members {x : Obj C} : ∀ {t : Ty C}, Fine K t →
    (Inst K x t ↔ ∃ u ∈ t.members, Inst K x u) := by
  intro t
  induction t using Ty.rec (motive_2 := fun _ => True) with
  | union a b iha ihb =>
    intro h
    rw [inst_union (fine_union h).1, iha (fine_union h).1, ihb (fine_union h).2]
    simp only [Ty.members, List.mem_append]
    constructor
    · rintro (⟨u, h1, h2⟩ | ⟨u, h1, h2⟩)
      · exact ⟨u, .inl h1, h2⟩
      · exact ⟨u, .inr h1, h2⟩
    · rintro ⟨u, h1 | h1, h2⟩
      · exact .inl ⟨u, h1, h2⟩
      · exact .inr ⟨u, h1, h2⟩
  | cls | single | limInt | subclass | limFun | limColl => intro _; simp [Ty.members]
  | _ => trivial

theorem inst_bounds {x : Obj C} {b : Bounds} :
    Inst K x (.limInt b) ↔ ∃ i, x = .int i ∧ limIntTest i b = true := by
  cases x <;> simp [Inst, inst]

theorem fine_ok {b : Bounds} (h : Fine K (.limInt b)) : b.Ok := by
  cases b with
  | both m M => exact (h _ (by simp [Ty.members])).2.2 m M rfl
  | _ => trivial

/-- `subtype?` is sound on fine types. -/
theorem sub_sound (hK : DLawful K) {x : Obj C} : ∀ {s t : Ty C}, Fine K s → Fine K t →
    Sub K s t → Inst K x s → Inst K x t := by
  intro s
  induction s using Ty.rec (motive_2 := fun _ => True) with
  | union a b iha ihb =>
    intro t hs ht h hx
    simp only [Sub, sub_union_left, andO_true] at h
    rcases (inst_union (fine_union hs).1).1 hx with hx | hx
    · exact iha (fine_union hs).1 ht h.1 hx
    · exact ihb (fine_union hs).2 ht h.2 hx
  | single o =>
    intro t hs ht h hx
    simp only [Inst, inst, Option.some.injEq, decide_eq_true_eq] at hx
    subst hx
    simpa [Sub, Inst, sub_single] using h
  | limColl c e s d => intro t hs; exact absurd rfl ((hs _ (by simp [Ty.members])).1 c e s d)
  | cls | limInt | subclass | limFun =>
    intro t hs ht h hx
    induction t using Ty.rec (motive_2 := fun _ => True) with
    | union a b iha ihb =>
      simp only [Sub] at h
      rw [sub_union_right _ (by intro p q h; cases h), orO_true] at h
      rw [inst_union (fine_union ht).1]
      rcases h with h | h
      · exact .inl (iha (fine_union ht).1 h)
      · exact .inr (ihb (fine_union ht).2 h.2)
    | limColl c e s d => exact absurd rfl ((ht _ (by simp [Ty.members])).1 c e s d)
    | cls d =>
      first
      | (simp only [Sub, Inst, sub, inst, Option.some.injEq] at *
         exact hK.trans _ _ _ hx h)
      | (cases x with
         | int i =>
           simp only [Sub, Inst, sub, inst, Option.some.injEq, classOf] at *
           first | exact h | exact (Bool.false_ne_true hx).elim
         | cls e =>
           simp only [Sub, Inst, sub, inst, Option.some.injEq, classOf] at *
           first | exact hK.trans _ _ _ (hK.metaC e) h | exact (Bool.false_ne_true hx).elim
         | fn xc xs id =>
           simp only [Sub, Inst, sub, inst, Option.some.injEq, classOf, Bool.and_eq_true] at *
           first | exact hK.trans _ _ _ hx.1 h | exact (Bool.false_ne_true hx).elim
         | _ => simp [Inst, inst] at hx)
    | single o => simp [Sub, sub] at h
    | limInt b =>
      first
      | (simp [Sub, sub] at h; done)
      | (obtain ⟨i, rfl, hi⟩ := inst_bounds.1 hx
         simp only [Sub, sub, Option.some.injEq] at h
         exact inst_bounds.2 ⟨i, rfl, limIntSub_sound (fine_ok hs) (fine_ok ht) h hi⟩)
    | subclass d =>
      first
      | (simp [Sub, sub] at h; done)
      | (simp only [Sub, sub, Option.some.injEq, Bool.and_eq_true, decide_eq_true_eq] at h
         exact ((ht (.subclass d) (by simp [Ty.members])).2.1 (by rw [h.2])).elim)
      | (cases x with
         | cls e =>
           simp only [Sub, Inst, sub, inst, Option.some.injEq] at *
           exact hK.trans _ _ _ hx h
         | _ => simp [Inst, inst] at hx)
    | limFun => simp [Sub, sub] at h
    | _ => trivial
  | _ => trivial

/-! ### orders that do not depend on the argument -/

theorem orderSpec_class {s t : Ty C} {x y : Obj C} (hc : classOf K.toWorld x = classOf K.toWorld y)
    (h : ∀ c d, s = .subclass c → t = .subclass d → c = d ∨ x = y) :
    orderSpec K s t x = orderSpec K s t y := by
  cases s with
  | subclass c =>
    cases t with
    | subclass d =>
      rcases h c d rfl rfl with h | h
      · subst h; simp [orderSpec]
      · subst h; rfl
    | _ => simp [orderSpec, orderClasses, hc]
  | _ => cases t <;> simp [orderSpec, orderClasses, hc]

/-- Two types with the same instances. -/
def SameInst (K : DWorld C) (s t : Ty C) : Prop := ∀ x, Inst K x s ↔ Inst K x t

theorem SameInst.symm {s t : Ty C} (h : SameInst K s t) : SameInst K t s := fun x => (h x).symm

theorem SameInst.trans {s t u : Ty C} (h : SameInst K s t) (h' : SameInst K t u) :
    SameInst K s u := fun x => (h x).trans (h' x)

theorem top_inst (hK : DLawful K) {s : Ty C} (hf : Fine K s) (h : Sub K (.cls K.objC) s)
    (x : Obj C) : Inst K x s :=
  sub_sound hK (s := .cls K.objC) (by intro u hu; simp [Ty.members] at hu; subst hu; simp) hf h
    (by simp [Inst, inst, hK.top])

theorem top_shape (hK : DLawful K) {s : Ty C} (hf : Fine K s) (h : Sub K (.cls K.objC) s) :
    s = .cls K.objC ∨ ∃ a b, s = .union a b := by
  cases s with
  | cls d =>
    simp only [Sub, sub, Option.some.injEq] at h
    exact .inl (by rw [hK.antisymm _ _ h (hK.top d)])
  | union a b => exact .inr ⟨a, b, rfl⟩
  | subclass d =>
    simp only [Sub, sub, Option.some.injEq, Bool.and_eq_true, decide_eq_true_eq] at h
    exact ((hf (.subclass d) (by simp [Ty.members])).2.1 (by rw [h.2])).elim
  | limColl c e s d => exact absurd rfl ((hf _ (by simp [Ty.members])).1 c e s d)
  | _ => simp [Sub, sub] at h

theorem classLess_sub (hK : DLawful K) {k c d : C} (hk : K.sub k c = true)
    (h : K.sub c d = true) (ne : c ≠ d) :
    classLess c d (K.cpl k) = true ∧ classLess d c (K.cpl k) = false := by
  have mc := (hK.mem k c).2 hk
  have md := (hK.mem k d).2 (hK.trans _ _ _ hk h)
  have hs := hK.order k c d mc h ne
  refine ⟨(classLess_iff (hK.nodup k) mc md ne).2 hs, ?_⟩
  rw [← Bool.not_eq_true, classLess_iff (hK.nodup k) md mc (Ne.symm ne)]
  exact sublist_asymm (hK.nodup k) hs

/-- Between specializers that either have all objects as instances or the same instances as
    one given type, the order is the same for all arguments. -/
theorem orderSpec_test (hK : DLawful K) {s t u : Ty C} {x y : Obj C} (hs : Fine K s) (ht : Fine K t)
    (h1 : Sub K (.cls K.objC) s ∨ SameInst K s u) (h2 : Sub K (.cls K.objC) t ∨ SameInst K t u)
    (hxs : Inst K x s) (hys : Inst K y s) (hxt : Inst K x t) (hyt : Inst K y t) :
    orderSpec K s t x = orderSpec K s t y := by
  have hss : (Sub K (.cls K.objC) s ∨ Sub K (.cls K.objC) t) ∨ SameInst K s t := by
    rcases h1 with h | h1
    · exact .inl (.inl h)
    · rcases h2 with h | h2
      · exact .inl (.inr h)
      · exact .inr (h1.trans h2.symm)
  have hcls : ∀ z c, Inst K z (.cls c) ↔ K.sub (classOf K.toWorld z) c = true := by
    intro z c; simp [Inst, inst]
  have hmix : ∀ c d, ¬ SameInst K (.subclass c) (.cls d) := by
    intro c d h
    have := (h (.other d 0)).2 (by simp [Inst, inst, classOf, hK.refl])
    simp [Inst, inst] at this
  have hsubc : ∀ c z, Inst K z (.subclass c) → ∃ e, z = .cls e := by
    intro c z h; cases z <;> simp_all [Inst, inst]
  have hnt : ∀ c, ¬ Sub K (.cls K.objC) (.subclass c) ∨ c = K.classC := by
    intro c
    by_cases h : Sub K (.cls K.objC) (.subclass c)
    · simp only [Sub, sub, Option.some.injEq, Bool.and_eq_true, decide_eq_true_eq] at h
      exact .inr h.2
    · exact .inl h
  by_cases e : s = t
  · subst e; simp [orderSpec]
  cases s with
  | subclass c =>
    have hc := (hnt c).resolve_right (fun h => (hs (.subclass c) (by simp [Ty.members])).2.1 (by rw [h]))
    cases t with
    | subclass d =>
      exfalso
      have hd := (hnt d).resolve_right
        (fun h => (ht (.subclass d) (by simp [Ty.members])).2.1 (by rw [h]))
      have h := hss.resolve_left (by rintro (h | h); exacts [hc h, hd h])
      have a1 := (h (.cls c)).1 (by simp [Inst, inst, hK.refl])
      have a2 := (h (.cls d)).2 (by simp [Inst, inst, hK.refl])
      simp only [Inst, inst, Option.some.injEq] at a1 a2
      exact e (by rw [hK.antisymm _ _ a1 a2])
    | cls d =>
      rcases hss with (h | h) | h
      · exact absurd h hc
      · have hd := (top_shape hK ht h).resolve_right (by simp)
        cases hd
        obtain ⟨e1, rfl⟩ := hsubc _ _ hxs
        obtain ⟨e2, rfl⟩ := hsubc _ _ hys
        have h3 : orderClasses K K.classC K.objC (.cls e1) =
            orderClasses K K.classC K.objC (.cls e2) := by
          simp only [orderClasses]
          by_cases h3 : K.classC = K.objC
          · simp [h3]
          · have a1 := (classLess_sub hK (hK.metaC e1) (hK.top _) h3).1
            have a2 := (classLess_sub hK (hK.metaC e2) (hK.top _) h3).1
            simp [classOf, a1, a2]
        simp only [orderSpec, h3]
      · exact absurd h (hmix c d)
    | _ => simp [orderSpec]
  | cls c =>
    cases t with
    | subclass d =>
      have hd := (hnt d).resolve_right
        (fun h => (ht (.subclass d) (by simp [Ty.members])).2.1 (by rw [h]))
      rcases hss with (h | h) | h
      · have hd := (top_shape hK hs h).resolve_right (by simp)
        cases hd
        obtain ⟨e1, rfl⟩ := hsubc _ _ hxt
        obtain ⟨e2, rfl⟩ := hsubc _ _ hyt
        have h3 : orderClasses K K.objC K.classC (.cls e1) =
            orderClasses K K.objC K.classC (.cls e2) := by
          simp only [orderClasses]
          by_cases h3 : K.objC = K.classC
          · simp [h3]
          · have a1 := (classLess_sub hK (hK.metaC e1) (hK.top _) (Ne.symm h3)).2
            have a2 := (classLess_sub hK (hK.metaC e2) (hK.top _) (Ne.symm h3)).2
            simp [classOf, a1, a2]
        simp only [orderSpec, h3]
      · exact absurd h hd
      · exact absurd h.symm (hmix d c)
    | cls d =>
      have ne : c ≠ d := fun h => e (by rw [h])
      rw [hcls] at hxs hys hxt hyt
      simp only [orderSpec, e, if_false, orderClasses, ne]
      rcases hss with (h | h) | h
      · have hd := (top_shape hK hs h).resolve_right (by simp)
        cases hd
        rw [(classLess_sub hK hxt (hK.top _) (Ne.symm ne)).2,
          (classLess_sub hK hyt (hK.top _) (Ne.symm ne)).2]
      · have hd := (top_shape hK ht h).resolve_right (by simp)
        cases hd
        rw [(classLess_sub hK hxs (hK.top _) ne).1, (classLess_sub hK hys (hK.top _) ne).1]
      · have a1 := (h (.other c 0)).1 (by simp [Inst, inst, classOf, hK.refl])
        have a2 := (h (.other d 0)).2 (by simp [Inst, inst, classOf, hK.refl])
        simp only [Inst, inst, Option.some.injEq, classOf] at a1 a2
        exact absurd (hK.antisymm _ _ a1 a2) ne
    | _ => simp [orderSpec]
  | _ => cases t <;> simp [orderSpec]

/-! ### what the class of an argument tells -/

/-- The argument, if its class is below `<class>`, is a class. -/
def Prop1 (K : DWorld C) (x : Obj C) : Prop :=
  K.sub (classOf K.toWorld x) K.classC = true → ∃ d, x = .cls d

theorem hasInstances_all (hK : DLawful K) {x : Obj C} (hx : Prop1 K x) {t : Ty C} (hf : Fine K t)
    (h : (hasInstances K (classOf K.toWorld x) t).2 = true) : Inst K x t := by
  induction t using Ty.rec (motive_2 := fun _ => True) with
  | union a b iha ihb =>
    simp only [hasInstances, Bool.or_eq_true] at h
    rw [inst_union (fine_union hf).1]
    exact h.imp (iha (fine_union hf).1) (ihb (fine_union hf).2)
  | cls d => simpa [hasInstances, Inst, inst] using h
  | subclass d =>
    simp only [hasInstances, Bool.and_eq_true, decide_eq_true_eq] at h
    obtain ⟨e, rfl⟩ := hx h.1
    simp [Inst, inst, h.2, hK.top]
  | single | limInt | limFun | limColl => simp [hasInstances] at h
  | _ => trivial

theorem hasInstances_some (hK : DLawful K) {x : Obj C} {t : Ty C} (hf : Fine K t)
    (h : Inst K x t) : (hasInstances K (classOf K.toWorld x) t).1 = true := by
  induction t using Ty.rec (motive_2 := fun _ => True) with
  | union a b iha ihb =>
    simp only [hasInstances, Bool.or_eq_true]
    rw [inst_union (fine_union hf).1] at h
    exact h.imp (iha (fine_union hf).1) (ihb (fine_union hf).2)
  | cls d => simpa [hasInstances, Inst, inst] using h
  | subclass d =>
    cases x <;> simp_all [hasInstances, Inst, inst, classOf, hK.metaC]
  | single o =>
    simp only [Inst, inst, Option.some.injEq, decide_eq_true_eq] at h
    simp [hasInstances, h, hK.refl]
  | limInt b =>
    obtain ⟨i, rfl, -⟩ := inst_bounds.1 h
    simp [hasInstances, classOf, hK.refl]
  | limFun s => cases x <;> simp_all [hasInstances, Inst, inst, classOf]
  | limColl c e s d => exact absurd rfl ((hf _ (by simp [Ty.members])).1 c e s d)
  | _ => trivial

theorem groundedHas_some (hK : DLawful K) {x : Obj C} {t : Ty C} (hf : Fine K t)
    (h : Inst K x t) : (groundedHas K (classOf K.toWorld x) t).1 = true := by
  cases t with
  | single o =>
    simp only [Inst, inst, Option.some.injEq, decide_eq_true_eq] at h
    simp [groundedHas, h]
  | _ => exact hasInstances_some hK hf h

theorem groundedHas_all (hK : DLawful K) {x : Obj C} (hx : Prop1 K x) {t : Ty C} (hf : Fine K t)
    (h : (groundedHas K (classOf K.toWorld x) t).2 = true) : Inst K x t := by
  cases t with
  | single o => simp [groundedHas] at h
  | _ => exact hasInstances_all hK hx hf h

/-- Without secondary dispatch, the class decides. -/
theorem not_secondary (hK : DLawful K) {x y : Obj C} (hx : Prop1 K x) (hy : Prop1 K y)
    (hc : classOf K.toWorld x = classOf K.toWorld y) {t : Ty C} (hf : Fine K t)
    (h : secondary K (classOf K.toWorld x) t = false) : Inst K x t ↔ Inst K y t := by
  induction t using Ty.rec (motive_2 := fun _ => True) with
  | union a b iha ihb =>
    simp only [secondary, Bool.or_eq_false_iff] at h
    rw [inst_union (fine_union hf).1, inst_union (fine_union hf).1, iha (fine_union hf).1 h.1,
      ihb (fine_union hf).2 h.2]
  | cls | single | limInt | subclass | limFun | limColl =>
    simp only [secondary, Bool.and_eq_false_iff, Bool.not_eq_false'] at h
    rcases h with h | h
    · constructor
      · intro hi; rw [groundedHas_some hK hf hi] at h; cases h
      · intro hi; rw [hc, groundedHas_some hK hf hi] at h; cases h
    · constructor
      · intro; rw [hc] at h; exact groundedHas_all hK hy hf h
      · intro; exact groundedHas_all hK hx hf h
  | _ => trivial

/-- The same for methods of which the class accounts for all or none. -/
theorem not_partial (hK : DLawful K) {x y : Obj C} (hx : Prop1 K x) (hy : Prop1 K y)
    (hc : classOf K.toWorld x = classOf K.toWorld y) {t : Ty C} (hf : Fine K t)
    (h : (groundedHas K (classOf K.toWorld x) t).1 = true →
      (groundedHas K (classOf K.toWorld x) t).2 = true) : Inst K x t ↔ Inst K y t := by
  constructor
  · intro hi
    have := h (groundedHas_some hK hf hi)
    rw [hc] at this
    exact groundedHas_all hK hy hf this
  · intro hi
    have := h (by rw [hc]; exact groundedHas_some hK hf hi)
    exact groundedHas_all hK hx hf this

end Verif.Dispatch
