/-
C52: applicable methods are ordered by specificity, as the language defines it.
-/
import Verif.Dispatch.Order.Lemmas
import Verif.Types.Props

namespace Verif.Dispatch
open Verif.Types
variable {C : Type} [DecidableEq C]

/-- C52: comparing classes by precedence list never runs past the end of the list, if the
    argument is an instance of both. -/
theorem classLess_defined {K : DWorld C} (hK : DLawful K) (x : Obj C) (c d : C) :
    (Inst K x (.cls c) → Inst K x (.cls d) →
      c ∈ K.cpl (classOf K.toWorld x) ∧ d ∈ K.cpl (classOf K.toWorld x)) ∧
    (Inst K x (.subclass c) → Inst K x (.subclass d) →
      ∃ e, x = .cls e ∧ c ∈ K.cpl e ∧ d ∈ K.cpl e) := by
  refine ⟨fun h1 h2 => ?_, fun h1 h2 => ?_⟩
  · simp only [Inst, inst, Option.some.injEq] at h1 h2
    exact ⟨(hK.mem _ _).2 h1, (hK.mem _ _).2 h2⟩
  · cases x with
    | cls e =>
      simp only [Inst, inst, Option.some.injEq] at h1 h2
      exact ⟨e, rfl, (hK.mem _ _).2 h1, (hK.mem _ _).2 h2⟩
    | _ => simp [Inst, inst] at h1

theorem orderDefault_spec {K : DWorld C} {x : Obj C} {s t : Ty C}
    (hs : (∀ c d, ¬ (s = .cls c ∧ t = .cls d)) ∧ ∀ c d, ¬ (s = .subclass c ∧ t = .subclass d)) :
    (orderDefault K s t = .lt ↔ MoreSpecific K x s t) ∧
    (orderDefault K s t = .gt ↔ MoreSpecific K x t s) ∧
    (orderDefault K s t = .eq ↔ (Sub K s t ∧ Sub K t s)) := by
  have e1 : MoreSpecific K x s t ↔ (Sub K s t ∧ ¬ Sub K t s) := by
    unfold MoreSpecific
    constructor
    · rintro (h | ⟨c, d, a, b, _⟩ | ⟨c, d, e, a, b, _⟩)
      · exact h
      · exact absurd ⟨a, b⟩ (hs.1 c d)
      · exact absurd ⟨a, b⟩ (hs.2 c d)
    · exact .inl
  have e2 : MoreSpecific K x t s ↔ (Sub K t s ∧ ¬ Sub K s t) := by
    unfold MoreSpecific
    constructor
    · rintro (h | ⟨c, d, a, b, _⟩ | ⟨c, d, e, a, b, _⟩)
      · exact h
      · exact absurd ⟨b, a⟩ (hs.1 d c)
      · exact absurd ⟨b, a⟩ (hs.2 d c)
    · exact .inl
  rw [e1, e2]
  have i1 : isSub K.toWorld s t = true ↔ Sub K s t := isSub_iff
  have i2 : isSub K.toWorld t s = true ↔ Sub K t s := isSub_iff
  unfold orderDefault
  by_cases h1 : Sub K s t <;> by_cases h2 : Sub K t s <;> simp [i1, i2, h1, h2]

theorem sub_equiv_self {K : DWorld C} (hK : DLawful K) {c d : C} : (Sub K (.cls c) (.cls d) ↔
    K.sub c d = true) ∧ (Sub K (.subclass c) (.subclass d) ↔ K.sub c d = true) := by
  simp [Sub, sub]

/-- Two classes, of both of which the reference class is a subclass. -/
theorem orderCpl_spec {K : DWorld C} (hK : DLawful K) {c d k : C} (hc : K.sub k c = true)
    (hd : K.sub k d = true) (ne : c ≠ d) :
    (classLess c d (K.cpl k) = true ↔ [c, d].Sublist (K.cpl k)) ∧
    (¬ classLess c d (K.cpl k) = true ↔ [d, c].Sublist (K.cpl k)) ∧
    (K.sub c d = true → [c, d].Sublist (K.cpl k)) ∧
    (K.sub d c = true → [d, c].Sublist (K.cpl k)) := by
  have mc := (hK.mem k c).2 hc
  have md := (hK.mem k d).2 hd
  have h := classLess_iff (hK.nodup k) mc md ne
  refine ⟨h, ?_, fun hs => hK.order k c d mc hs ne, fun hs => hK.order k d c md hs (Ne.symm ne)⟩
  rw [h]
  constructor
  · intro hn
    exact (sublist_or (hK.nodup k) mc md ne).resolve_left hn
  · intro h1 h2
    exact sublist_asymm (hK.nodup k) h2 h1

theorem moreSpecific_irrefl {K : DWorld C} (hK : DLawful K) (x : Obj C) (s : Ty C) :
    ¬ MoreSpecific K x s s := by
  rintro (⟨h1, h2⟩ | ⟨c, d, rfl, e, h⟩ | ⟨c, d, e, rfl, e', _, h⟩)
  · exact h2 h1
  · cases e; have := (hK.nodup _).sublist h; simp at this
  · cases e'; have := (hK.nodup _).sublist h; simp at this

theorem moreSpecific_classes {K : DWorld C} (hK : DLawful K) {x : Obj C} {c d : C}
    (hc : Inst K x (.cls c)) (hd : Inst K x (.cls d)) (ne : c ≠ d) :
    MoreSpecific K x (.cls c) (.cls d) ↔ [c, d].Sublist (K.cpl (classOf K.toWorld x)) := by
  simp only [Inst, inst, Option.some.injEq] at hc hd
  have h := orderCpl_spec hK hc hd ne
  constructor
  · rintro (⟨h1, h2⟩ | ⟨c', d', e1, e2, h'⟩ | ⟨c', d', e, e1, _⟩)
    · exact h.2.2.1 ((sub_equiv_self hK).1.1 h1)
    · cases e1; cases e2; exact h'
    · cases e1
  · exact fun h' => .inr (.inl ⟨c, d, rfl, rfl, h'⟩)

theorem moreSpecific_subclasses {K : DWorld C} (hK : DLawful K) {e c d : C}
    (hc : K.sub e c = true) (hd : K.sub e d = true) (ne : c ≠ d) :
    MoreSpecific K (.cls e) (.subclass c) (.subclass d) ↔ [c, d].Sublist (K.cpl e) := by
  have h := orderCpl_spec hK hc hd ne
  constructor
  · rintro (⟨h1, h2⟩ | ⟨c', d', e1, e2, h'⟩ | ⟨c', d', e', e1, e2, e3, h'⟩)
    · exact h.2.2.1 ((sub_equiv_self hK).2.1 h1)
    · cases e1
    · cases e1; cases e2; cases e3; exact h'
  · exact fun h' => .inr (.inr ⟨c, d, e, rfl, rfl, rfl, h'⟩)

theorem moreSpecific_mixed {K : DWorld C} {x : Obj C} {s t : Ty C}
    (hs : (∀ c d, ¬ (s = .cls c ∧ t = .cls d)) ∧ ∀ c d, ¬ (s = .subclass c ∧ t = .subclass d)) :
    MoreSpecific K x s t ↔ (Sub K s t ∧ ¬ Sub K t s) := by
  unfold MoreSpecific
  constructor
  · rintro (h | ⟨c, d, a, b, _⟩ | ⟨c, d, e, a, b, _⟩)
    · exact h
    · exact absurd ⟨a, b⟩ (hs.1 c d)
    · exact absurd ⟨a, b⟩ (hs.2 c d)
  · exact .inl

theorem no_sub_single {K : DWorld C} {t : Ty C} {o : Obj C} (ht : ∀ p, t ≠ .single p)
    (h : ∀ o a b, t = .union a b → ¬ Sub K t (.single o)) : ¬ Sub K t (.single o) := by
  cases t with
  | union a b => exact h o a b rfl
  | single p => exact absurd rfl (ht p)
  | _ => simp [Sub, sub]

/-- C52: for an argument that is an instance of both specializers, `%order-specializers` answers
    "before", "after" or "equal" exactly if the first is more specific, less specific or equivalent;
    in the remaining case it answers "ambiguous". -/
theorem specializer_order {K : DWorld C} (hK : DLawful K) (x : Obj C) (s t : Ty C)
    (hc : Comparable K s t) (hs : Inst K x s) (ht : Inst K x t) :
    (orderSpec K s t x = .lt ↔ MoreSpecific K x s t) ∧
    (orderSpec K s t x = .gt ↔ MoreSpecific K x t s) ∧
    (orderSpec K s t x = .eq ↔ Equivalent K s t) := by
  by_cases e : s = t
  · subst e
    simp [orderSpec, moreSpecific_irrefl hK, Equivalent]
  have hE : Equivalent K s t ↔ (Sub K s t ∧ Sub K t s) := by simp [Equivalent, e]
  rw [hE]
  have hsing : ∀ o u, Inst K x (.single o) → Inst K x u → Sub K (.single o) u := by
    intro o u h1 h2
    simp only [Inst, inst, Option.some.injEq, decide_eq_true_eq] at h1
    subst h1
    simpa [Sub, Inst, sub_single] using h2
  have hdef := fun h => orderDefault_spec (K := K) (x := x) (s := s) (t := t) h
  unfold orderSpec
  rw [if_neg e]
  cases s with
  | single o =>
    cases t with
    | single p =>
      simp only [Inst, inst, Option.some.injEq, decide_eq_true_eq] at hs ht
      exact absurd (by rw [← hs, ← ht]) e
    | _ =>
      have h1 := hsing o _ hs ht
      have h2 := no_sub_single (o := o) (by intro p h; cases h) hc.t1
      rw [moreSpecific_mixed (by simp), moreSpecific_mixed (by simp)]
      simp [h1, h2]
  | subclass c =>
    cases t with
    | single o =>
      have h1 := hsing o _ ht hs
      have h2 := no_sub_single (o := o) (by intro p h; cases h) hc.s1
      rw [moreSpecific_mixed (by simp), moreSpecific_mixed (by simp)]
      simp [h1, h2]
    | subclass d =>
      have ne : c ≠ d := fun h => e (by rw [h])
      cases x with
      | cls k =>
        simp only [Inst, inst, Option.some.injEq] at hs ht
        have h := orderCpl_spec hK hs ht ne
        rw [moreSpecific_subclasses hK hs ht ne, moreSpecific_subclasses hK ht hs (Ne.symm ne)]
        have hnn : ¬ (Sub K (.subclass c) (.subclass d) ∧ Sub K (.subclass d) (.subclass c)) := by
          rw [(sub_equiv_self hK).2, (sub_equiv_self hK).2]
          exact fun h => ne (hK.antisymm _ _ h.1 h.2)
        simp only [ne, if_false, cplOfArg, hnn, iff_false]
        rw [← h.1, ← h.2.1]
        by_cases hl : classLess c d (K.cpl k) = true <;> simp [hl]
      | _ => simp [Inst, inst] at hs
    | cls d =>
      rw [moreSpecific_mixed (by simp), moreSpecific_mixed (by simp)]
      have hco : c ≠ K.objC := fun h => hc.s2 (by rw [h])
      have hn : ¬ Sub K (.cls d) (.subclass c) := by
        intro h
        simp [Sub, sub] at h
        exact hc.s3 (by rw [h.2])
      have h1 : Sub K (.subclass c) (.cls d) ↔ K.sub K.classC d = true := by simp [Sub, sub]
      simp only [hco, if_false, hn, h1]
      by_cases h : K.sub K.classC d = true <;> simp [h]
    | _ => exact hdef (by simp)
  | cls c =>
    cases t with
    | single o =>
      have h1 := hsing o _ ht hs
      have h2 := no_sub_single (o := o) (by intro p h; cases h) hc.s1
      rw [moreSpecific_mixed (by simp), moreSpecific_mixed (by simp)]
      simp [h1, h2]
    | subclass d =>
      rw [moreSpecific_mixed (by simp), moreSpecific_mixed (by simp)]
      have hco : d ≠ K.objC := fun h => hc.t2 (by rw [h])
      have hn : ¬ Sub K (.cls c) (.subclass d) := by
        intro h
        simp [Sub, sub] at h
        exact hc.t3 (by rw [h.2])
      have h1 : Sub K (.subclass d) (.cls c) ↔ K.sub K.classC c = true := by simp [Sub, sub]
      simp only [hco, if_false, hn, h1]
      by_cases h : K.sub K.classC c = true <;> simp [h]
    | cls d =>
      have ne : c ≠ d := fun h => e (by rw [h])
      rw [moreSpecific_classes hK hs ht ne, moreSpecific_classes hK ht hs (Ne.symm ne)]
      simp only [Inst, inst, Option.some.injEq] at hs ht
      have h := orderCpl_spec hK hs ht ne
      have hnn : ¬ (Sub K (.cls c) (.cls d) ∧ Sub K (.cls d) (.cls c)) := by
        rw [(sub_equiv_self hK).1, (sub_equiv_self hK).1]
        exact fun h => ne (hK.antisymm _ _ h.1 h.2)
      simp only [orderClasses, ne, if_false, hnn, iff_false]
      rw [← h.1, ← h.2.1]
      by_cases hl : classLess c d (K.cpl (classOf K.toWorld x)) = true <;> simp [hl]
    | _ => exact hdef (by simp)
  | _ =>
    cases t with
    | single o =>
      have h1 := hsing o _ ht hs
      have h2 := no_sub_single (o := o) (by intro p h; cases h) hc.s1
      rw [moreSpecific_mixed (by simp), moreSpecific_mixed (by simp)]
      simp [h1, h2]
    | _ => exact hdef (by simp)

/-- The specializers of two methods can be compared at every position. -/
def ComparableMethods (K : DWorld C) (nreq : Nat) (m1 m2 : Meth C) : Prop :=
  ∀ a < nreq, Comparable K (spec K m1 a) (spec K m2 a)

/-- C52: `%order-methods` on two applicable methods says which is more specific, or that their
    specializers are equivalent. -/
theorem method_order {K : DWorld C} (hK : DLawful K) (nreq : Nat) (args : Args C) (m1 m2 : Meth C)
    (hc : ComparableMethods K nreq m1 m2)
    (h1 : Applicable K nreq args m1) (h2 : Applicable K nreq args m2) :
    (orderMethods K nreq args m1 m2 = .lt ↔ MethodBefore K nreq args m1 m2) ∧
    (orderMethods K nreq args m1 m2 = .gt ↔ MethodBefore K nreq args m2 m1) ∧
    (orderMethods K nreq args m1 m2 = .eq ↔
      ∀ a < nreq, Equivalent K (spec K m1 a) (spec K m2 a)) := by
  have hs := fun a (h : a < nreq) =>
    specializer_order hK (args a) _ _ (hc a h) (h1 a h) (h2 a h)
  have hsym : ∀ s t : Ty C, Equivalent K s t ↔ Equivalent K t s := fun s t => by
    unfold Equivalent
    exact or_congr ⟨Eq.symm, Eq.symm⟩ ⟨And.symm, And.symm⟩
  obtain ⟨-, -, -, -, c5, c6, c7⟩ := combine_iff
    ((List.range nreq).map fun a => orderSpec K (spec K m1 a) (spec K m2 a) (args a))
  rw [orderMethods, orderMethodsFrom_eq, c5, c6, c7]
  simp only [List.mem_map, List.mem_range, MethodBefore]
  refine ⟨?_, ?_, ?_⟩
  · constructor
    · rintro ⟨⟨o, ⟨a, ha, rfl⟩, ho⟩, hall⟩
      refine ⟨⟨a, ha, (hs a ha).1.1 ho⟩, fun b hb => ?_⟩
      exact (hall _ ⟨b, hb, rfl⟩).imp (hs b hb).1.1 (hs b hb).2.2.1
    · rintro ⟨⟨a, ha, ho⟩, hall⟩
      refine ⟨⟨_, ⟨a, ha, rfl⟩, (hs a ha).1.2 ho⟩, ?_⟩
      rintro _ ⟨b, hb, rfl⟩
      exact (hall b hb).imp (hs b hb).1.2 (hs b hb).2.2.2
  · constructor
    · rintro ⟨⟨o, ⟨a, ha, rfl⟩, ho⟩, hall⟩
      refine ⟨⟨a, ha, (hs a ha).2.1.1 ho⟩, fun b hb => ?_⟩
      exact (hall _ ⟨b, hb, rfl⟩).imp (hs b hb).2.1.1 fun h => (hsym _ _).1 ((hs b hb).2.2.1 h)
    · rintro ⟨⟨a, ha, ho⟩, hall⟩
      refine ⟨⟨_, ⟨a, ha, rfl⟩, (hs a ha).2.1.2 ho⟩, ?_⟩
      rintro _ ⟨b, hb, rfl⟩
      exact (hall b hb).imp (hs b hb).2.1.2 fun h => (hs b hb).2.2.2 ((hsym _ _).1 h)
  · constructor
    · exact fun h a ha => (hs a ha).2.2.1 (h _ ⟨a, ha, rfl⟩)
    · rintro h _ ⟨a, ha, rfl⟩
      exact (hs a ha).2.2.2 (h a ha)

/-- C52: the sort, for any comparison in which "before" and "after" are converse and which calls
    no two different methods equal. -/
theorem sort_sound {M : Type} (ord : M → M → Ord) (ms : List M) (hn : ms.Nodup)
    (hflip : ∀ x ∈ ms, ∀ y ∈ ms, ord x y = .lt ↔ ord y x = .gt)
    (hties : ∀ x ∈ ms, ∀ y ∈ ms, x ≠ y → ord x y ≠ .eq) :
    Sorted (fun x y => ord x y = .lt) ms (sortMethods ord ms).1 (sortMethods ord ms).2 := by
  have hA : Anti ord ms := fun x hx y hy => ⟨hties x hx y hy, hflip x hx y hy⟩
  obtain ⟨h1, h2⟩ := sortFrom_inv hA ms [] [] (fun _ h => h) (by simp) (by simpa using hn)
    ⟨List.Pairwise.nil, by simp, by simp⟩
  exact ⟨by simpa [sortMethods] using h2, h1.chain, h1.first, h1.stuck⟩

/-- C52: applicable methods with comparable specializers, no two of them equivalent, are
    sorted by specificity. -/
theorem methods_sorted {K : DWorld C} (hK : DLawful K) (nreq : Nat) (args : Args C)
    (ms : List (Meth C)) (hn : ms.Nodup)
    (happ : ∀ m ∈ ms, Applicable K nreq args m)
    (hc : ∀ m ∈ ms, ∀ m' ∈ ms, m ≠ m' → ComparableMethods K nreq m m')
    (hd : ∀ m ∈ ms, ∀ m' ∈ ms, m ≠ m' →
      ∃ a < nreq, ¬ Equivalent K (spec K m a) (spec K m' a)) :
    Sorted (fun m m' => m ≠ m' ∧ MethodBefore K nreq args m m') ms
      (sortMethods (orderMethods K nreq args) ms).1
      (sortMethods (orderMethods K nreq args) ms).2 := by
  have hself : ∀ m, orderMethods K nreq args m m = .eq := by
    intro m
    rw [orderMethods, orderMethodsFrom_eq, (combine_iff _).2.2.2.2.1]
    simp [orderSpec]
  have hlt : ∀ m ∈ ms, ∀ m' ∈ ms,
      (orderMethods K nreq args m m' = .lt ↔ m ≠ m' ∧ MethodBefore K nreq args m m') := by
    intro m hm m' hm'
    by_cases e : m = m'
    · subst e; simp [hself]
    · simp [e, (method_order hK nreq args m m' (hc m hm m' hm' e) (happ m hm) (happ m' hm')).1]
  have hS := sort_sound (orderMethods K nreq args) ms hn
    (by
      intro m hm m' hm'
      by_cases e : m = m'
      · subst e; simp [hself]
      · rw [(method_order hK nreq args m m' (hc m hm m' hm' e) (happ m hm) (happ m' hm')).1,
          (method_order hK nreq args m' m (hc m' hm' m hm (Ne.symm e)) (happ m' hm')
            (happ m hm)).2.1])
    (by
      intro m hm m' hm' e h
      rw [(method_order hK nreq args m m' (hc m hm m' hm' e) (happ m hm) (happ m' hm')).2.2] at h
      obtain ⟨a, ha, hn⟩ := hd m hm m' hm' e
      exact hn (h a ha))
  have hmem : ∀ m, m ∈ (sortMethods (orderMethods K nreq args) ms).1 ∨
      m ∈ (sortMethods (orderMethods K nreq args) ms).2 → m ∈ ms := fun m h =>
    hS.perm.mem_iff.1 (by simpa using h)
  refine ⟨hS.perm, ?_, ?_, ?_⟩
  · exact hS.chain.imp_of_mem fun h1 h2 h => (hlt _ (hmem _ (.inl h1)) _ (hmem _ (.inl h2))).1 h
  · exact fun m hm m' hm' => (hlt _ (hmem _ (.inl hm)) _ (hmem _ (.inr hm'))).1 (hS.first m hm m' hm')
  · intro m hm
    obtain ⟨m', h1, h2, h3⟩ := hS.stuck m hm
    exact ⟨m', h1, h2, fun h => h3 ((hlt _ (hmem _ (.inr hm)) _ (hmem _ (.inr h1))).2 h)⟩

/-- C52: the result of sorting is determined by the set of methods, up to the order of the
    ambiguous ones: it does not depend on the order in which methods were added. -/
theorem sorted_unique {M : Type} (before : M → M → Prop) (ms ms' o a o' a' : List M)
    (hp : ms.Perm ms') (hasym : ∀ x ∈ ms, ∀ y ∈ ms, before x y → ¬ before y x)
    (h : Sorted before ms o a) (h' : Sorted before ms' o' a') : o = o' ∧ a.Perm a' := by
  have hperm : (o ++ a).Perm (o' ++ a') := h.perm.trans (hp.trans h'.perm.symm)
  have hms : ∀ x ∈ o ++ a, x ∈ ms := fun x hx => h.perm.mem_iff.1 hx
  obtain ⟨-, hc, hf, hs⟩ := h
  obtain ⟨-, hc', hf', hs'⟩ := h'
  clear hp
  induction o generalizing o' with
  | nil =>
    cases o' with
    | nil => exact ⟨rfl, by simpa using hperm⟩
    | cons m o' =>
      exfalso
      have hm : m ∈ a := by simpa using hperm.mem_iff.2 (by simp : m ∈ m :: o' ++ a')
      obtain ⟨y, hy, hne, hnb⟩ := hs m hm
      have := hperm.mem_iff.1 (by simpa using hy)
      simp only [List.cons_append, List.mem_cons, List.mem_append] at this
      rcases this with rfl | hy | hy
      · exact hne rfl
      · exact hnb ((List.pairwise_cons.1 hc').1 y hy)
      · exact hnb (hf' m (by simp) y hy)
  | cons m o ih =>
    have hbef : ∀ y, y ∈ o ++ a → before m y := fun y hy => by
      rcases List.mem_append.1 hy with hy | hy
      · exact (List.pairwise_cons.1 hc).1 y hy
      · exact hf m (by simp) y hy
    cases o' with
    | nil =>
      exfalso
      have hm : m ∈ a' := by simpa using hperm.mem_iff.1 (by simp : m ∈ m :: o ++ a)
      obtain ⟨y, hy, hne, hnb⟩ := hs' m hm
      have := hperm.mem_iff.2 (by simpa using hy)
      simp only [List.cons_append, List.mem_cons] at this
      rcases this with rfl | hy
      · exact hne rfl
      · exact hnb (hbef y hy)
    | cons m' o' =>
      have hbef' : ∀ y, y ∈ o' ++ a' → before m' y := fun y hy => by
        rcases List.mem_append.1 hy with hy | hy
        · exact (List.pairwise_cons.1 hc').1 y hy
        · exact hf' m' (by simp) y hy
      have e : m = m' := by
        by_contra e
        have h1 : m' ∈ o ++ a := by
          have := hperm.mem_iff.2 (by simp : m' ∈ m' :: o' ++ a')
          simp only [List.cons_append, List.mem_cons] at this
          exact this.resolve_left fun h => e h.symm
        have h2 : m ∈ o' ++ a' := by
          have := hperm.mem_iff.1 (by simp : m ∈ m :: o ++ a)
          simp only [List.cons_append, List.mem_cons] at this
          exact this.resolve_left e
        exact hasym m (hms m (by simp)) m' (hms m' (by simp [List.mem_append.1 h1]))
          (hbef m' h1) (hbef' m h2)
      subst e
      obtain ⟨r1, r2⟩ := ih o' ((List.perm_cons m).1 (by simpa using hperm))
        (fun x hx => hms x (by simp at hx ⊢; exact .inr hx)) (List.pairwise_cons.1 hc).2
        (fun y hy => hf y (by simp [hy])) (List.pairwise_cons.1 hc').2
        (fun y hy => hf' y (by simp [hy]))
      exact ⟨by rw [r1], r2⟩

/-- C52: whatever order the applicable methods are found in, the same methods come out ordered,
    in the same order, and the same ones ambiguous. -/
theorem order_independent {K : DWorld C} (hK : DLawful K) (nreq : Nat) (args : Args C)
    (ms ms' : List (Meth C)) (hp : ms.Perm ms') (hn : ms.Nodup)
    (happ : ∀ m ∈ ms, Applicable K nreq args m)
    (hc : ∀ m ∈ ms, ∀ m' ∈ ms, m ≠ m' → ComparableMethods K nreq m m')
    (hd : ∀ m ∈ ms, ∀ m' ∈ ms, m ≠ m' →
      ∃ a < nreq, ¬ Equivalent K (spec K m a) (spec K m' a)) :
    (sortMethods (orderMethods K nreq args) ms).1 =
      (sortMethods (orderMethods K nreq args) ms').1 ∧
    (sortMethods (orderMethods K nreq args) ms).2.Perm
      (sortMethods (orderMethods K nreq args) ms').2 := by
  refine sorted_unique _ ms ms' _ _ _ _ hp ?_ (methods_sorted hK nreq args ms hn happ hc hd)
    (methods_sorted hK nreq args ms' (hp.nodup_iff.1 hn) (fun m h => happ m (hp.mem_iff.2 h))
      (fun m h m' h' => hc m (hp.mem_iff.2 h) m' (hp.mem_iff.2 h'))
      (fun m h m' h' => hd m (hp.mem_iff.2 h) m' (hp.mem_iff.2 h')))
  rintro x hx y hy ⟨ne, h1⟩ ⟨-, h2⟩
  have o1 := method_order hK nreq args x y (hc x hx y hy ne) (happ x hx) (happ y hy)
  have := o1.1.2 h1
  rw [o1.2.1.2 h2] at this
  cases this

/-! ### examples and a disagreement -/

/-- The world of the examples: `Verif.Types.demo` with its precedence lists. -/
def zoo : DWorld K8 where
  toWorld := demo
  objC := .object
  cpl c := c.supers
  offset _ _ := 0

theorem zoo_lawful : DLawful zoo where
  toLawful := demo_lawful
  top c := by cases c <;> decide
  mem c d := by cases c <;> cases d <;> decide
  nodup c := by cases c <;> decide
  order c d e := by cases c <;> cases d <;> cases e <;> decide

/-- The hypotheses of `methods_sorted` are met by four methods on a limited vector; the second
    argument makes two of them ambiguous. -/
def fourMethods : List (Meth K8) :=
  [{ id := 1, specs := [.cls .object, .cls .object] },
   { id := 2, specs := [.cls .limitedCollection, .cls .object] },
   { id := 3, specs := [.cls .limitedVector, .single (.int 5)] },
   { id := 4, specs := [.cls .vector, .cls .integer] }]

/-- The arguments of the example. -/
def fourArgs : Args K8 := fun a => if a = 0 then .other .limitedVector 0 else .int 5

example : (∀ m ∈ fourMethods, ∀ a < 2, isInst zoo.toWorld (fourArgs a) (spec zoo m a) = true) ∧
    ((sortMethods (orderMethods zoo 2 fourArgs) fourMethods).1.map Meth.id = [3]) ∧
    ((sortMethods (orderMethods zoo 2 fourArgs) fourMethods).2.map Meth.id = [4, 1, 2]) ∧
    ((sortMethods (orderMethods zoo 2 fourArgs) fourMethods.tail).1.map Meth.id = [3]) := by
  decide

example : ∀ m ∈ fourMethods, Applicable zoo 2 fourArgs m := by
  intro m hm a ha
  have : ∀ m ∈ fourMethods, ∀ a < 2,
      isInst zoo.toWorld (fourArgs a) (spec zoo m a) = true := by decide
  exact isInst_iff.1 (this m hm a ha)

/-- A sufficient condition for the hypothesis on pairs, that can be evaluated. -/
theorem comparable_of {K : DWorld C} {s t : Ty C} (h1 : subS K.toWorld s t ≠ none)
    (h2 : subS K.toWorld t s ≠ none) (h3 : ∀ a b, s ≠ .union a b) (h4 : ∀ a b, t ≠ .union a b)
    (h5 : ∀ c, s ≠ .subclass c) (h6 : ∀ c, t ≠ .subclass c) : Comparable K s t where
  st := by rwa [subS_eq] at h1
  ts := by rwa [subS_eq] at h2
  s1 o a b h := absurd h (h3 a b)
  t1 o a b h := absurd h (h4 a b)
  s2 := h5 _
  t2 := h6 _
  s3 := h5 _
  t3 := h6 _

example : ∀ m ∈ fourMethods, ∀ m' ∈ fourMethods, m ≠ m' → ComparableMethods zoo 2 m m' := by
  intro m hm m' hm' _ a ha
  have hcl : ∀ m ∈ fourMethods, ∀ a < 2,
      (match spec zoo m a with | .cls _ => true | .single _ => true | _ => false) = true := by
    decide
  have hs : ∀ m ∈ fourMethods, ∀ m' ∈ fourMethods, ∀ a < 2,
      subS zoo.toWorld (spec zoo m a) (spec zoo m' a) ≠ none := by decide
  have c1 := hcl m hm a ha
  have c2 := hcl m' hm' a ha
  refine comparable_of (hs m hm m' hm' a ha) (hs m' hm' m hm a ha) ?_ ?_ ?_ ?_ <;>
  · intros; intro h; simp [h] at c1 c2

example : ∀ m ∈ fourMethods, ∀ m' ∈ fourMethods, m ≠ m' →
    ∃ a < 2, ¬ Equivalent zoo (spec zoo m a) (spec zoo m' a) := by
  have h : ∀ m ∈ fourMethods, ∀ m' ∈ fourMethods, m ≠ m' → ∃ a < 2,
      spec zoo m a ≠ spec zoo m' a ∧
        ¬ (subS zoo.toWorld (spec zoo m a) (spec zoo m' a) = some true ∧
          subS zoo.toWorld (spec zoo m' a) (spec zoo m a) = some true) := by decide
  intro m hm m' hm' hne
  obtain ⟨a, ha, h1, h2⟩ := h m hm m' hm' hne
  refine ⟨a, ha, ?_⟩
  simpa [Equivalent, Sub, ← subS_eq, h1] using h2

/-- C52 fails for `subclass(<object>)` and `<class>`: both methods are kept in the generic
    function (`same-specializer?` tells them apart), both are applicable to a class, the sort
    calls them equal and keeps only the one it finds first.  The other is neither ordered nor
    ambiguous, and which one it is depends on the order of the methods. -/
theorem sort_drops_method_violated :
    let m1 : Meth K8 := { id := 1, specs := [.subclass .object] }
    let m2 : Meth K8 := { id := 2, specs := [.cls .class_] }
    let args : Args K8 := fun _ => .cls .integer
    sameSpec zoo (.subclass .object) (.cls .class_) = false ∧
    Applicable zoo 1 args m1 ∧ Applicable zoo 1 args m2 ∧
    sortMethods (orderMethods zoo 1 args) [m1, m2] = ([m1], []) ∧
    sortMethods (orderMethods zoo 1 args) [m2, m1] = ([m2], []) := by
  refine ⟨by decide, ?_, ?_, by decide, by decide⟩ <;>
  · intro a ha
    obtain rfl : a = 0 := by omega
    exact isInst_iff.1 (by decide)

end Verif.Dispatch
