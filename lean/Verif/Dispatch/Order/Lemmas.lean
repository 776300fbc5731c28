/-
Helper lemmas for method ordering.
-/
import Verif.Dispatch.Order.Spec
import Verif.Dispatch.TypeLemmas

namespace Verif.Dispatch
open Verif.Types
variable {C : Type} [DecidableEq C] {K : DWorld C}

theorem classLess_iff {c1 c2 : C} : ∀ {l : List C}, l.Nodup → c1 ∈ l → c2 ∈ l → c1 ≠ c2 →
    (classLess c1 c2 l = true ↔ [c1, c2].Sublist l)
  | [], _, h, _, _ => by cases h
  | c :: l, hn, h1, h2, ne => by
    have hn' := List.nodup_cons.1 hn
    by_cases e1 : c = c1
    · subst e1
      simp only [classLess, if_true, true_iff]
      rcases List.mem_cons.1 h2 with h | h
      · exact absurd h.symm ne
      · exact (List.singleton_sublist.2 h).cons_cons _
    · have m1 : c1 ∈ l := by
        rcases List.mem_cons.1 h1 with h | h
        · exact absurd h.symm e1
        · exact h
      by_cases e2 : c = c2
      · subst e2
        have : classLess c1 c (c :: l) = false := by simp [classLess, e1]
        rw [this]
        refine ⟨(by simp), fun hs => ?_⟩
        exfalso
        rcases hs with _ | h | h
        · rename_i h
          exact hn'.1 (h.subset (by simp))
        · exact ne rfl
      · have m2 : c2 ∈ l := by
          rcases List.mem_cons.1 h2 with h | h
          · exact absurd h.symm e2
          · exact h
        have : classLess c1 c2 (c :: l) = classLess c1 c2 l := by simp [classLess, e1, e2]
        rw [this, classLess_iff hn'.2 m1 m2 ne]
        refine ⟨fun h => h.cons _, fun hs => ?_⟩
        rcases hs with _ | h | h
        · assumption
        · exact absurd rfl e1

/-- Of two different members of a list without repetitions, one comes first, and only one. -/
theorem sublist_or {c1 c2 : C} {l : List C} (hn : l.Nodup) (h1 : c1 ∈ l) (h2 : c2 ∈ l)
    (ne : c1 ≠ c2) : [c1, c2].Sublist l ∨ [c2, c1].Sublist l := by
  induction l with
  | nil => cases h1
  | cons c l ih =>
    have hn' := List.nodup_cons.1 hn
    rcases List.mem_cons.1 h1 with e1 | m1
    · subst e1
      rcases List.mem_cons.1 h2 with e2 | m2
      · exact absurd e2.symm ne
      · exact .inl ((List.singleton_sublist.2 m2).cons_cons _)
    · rcases List.mem_cons.1 h2 with e2 | m2
      · subst e2; exact .inr ((List.singleton_sublist.2 m1).cons_cons _)
      · exact (ih hn'.2 m1 m2).imp (·.cons _) (·.cons _)

theorem sublist_asymm {c1 c2 : C} {l : List C} (hn : l.Nodup) (h : [c1, c2].Sublist l) :
    ¬ [c2, c1].Sublist l := by
  intro h'
  have m1 : c1 ∈ l := h.subset (by simp)
  have m2 : c2 ∈ l := h.subset (by simp)
  have ne : c1 ≠ c2 := by
    rintro rfl
    have := hn.sublist h
    simp at this
  have a := (classLess_iff hn m1 m2 ne).2 h
  have b := (classLess_iff hn m2 m1 (Ne.symm ne)).2 h'
  clear h h' 
  induction l with
  | nil => cases m1
  | cons c l ih =>
    have hn' := List.nodup_cons.1 hn
    simp only [classLess] at a b
    by_cases e1 : c = c1
    · subst e1; simp [ne] at b
    · by_cases e2 : c = c2
      · subst e2; simp [Ne.symm ne] at a
      · simp only [e1, e2, if_false] at a b
        have := fun e => e1 (Eq.symm e)
        have := fun e => e2 (Eq.symm e)
        exact ih hn'.2 (by simp_all) (by simp_all) a b

/-! ### combining the positions -/

/-- The loop of `%order-methods`, on the results of the comparisons. -/
def combine : Ord → List Ord → Ord
  | state, [] => state
  | state, cmp :: rest =>
    if cmp = .eq then combine state rest
    else if cmp ≠ .amb ∧ (state = .eq ∨ cmp = state) then combine cmp rest
    else .amb

theorem orderMethodsFrom_eq (m1 m2 : Meth C) (args : Args C) : ∀ (l : List Nat) (s : Ord),
    orderMethodsFrom K m1 m2 args s l =
      combine s (l.map fun a => orderSpec K (spec K m1 a) (spec K m2 a) (args a))
  | [], s => rfl
  | a :: l, s => by
    simp only [orderMethodsFrom, List.map_cons, combine]
    split
    · exact orderMethodsFrom_eq m1 m2 args l s
    · split
      · exact orderMethodsFrom_eq m1 m2 args l _
      · rfl

theorem combine_iff : ∀ (l : List Ord),
    (∀ d, combine .lt l = d → d ≠ .amb → d = .lt) ∧
    (combine .lt l = .lt ↔ ∀ o ∈ l, o = .lt ∨ o = .eq) ∧
    (∀ d, combine .gt l = d → d ≠ .amb → d = .gt) ∧
    (combine .gt l = .gt ↔ ∀ o ∈ l, o = .gt ∨ o = .eq) ∧
    (combine .eq l = .eq ↔ ∀ o ∈ l, o = .eq) ∧
    (combine .eq l = .lt ↔ (∃ o ∈ l, o = .lt) ∧ ∀ o ∈ l, o = .lt ∨ o = .eq) ∧
    (combine .eq l = .gt ↔ (∃ o ∈ l, o = .gt) ∧ ∀ o ∈ l, o = .gt ∨ o = .eq)
  | [] => by simp [combine]
  | o :: l => by
    obtain ⟨a1, a2, a3, a4, a5, a6, a7⟩ := combine_iff l
    cases o
    · simp only [combine]
      refine ⟨by simpa using a1, by simpa using a2, by simp, by simp, ?_, ?_, ?_⟩
      · simp; intro h; have := a1 _ h; simp at this
      · simpa using a2
      · simp
        intro h; have := a1 _ h; simp at this
    · simp only [combine]
      refine ⟨by simp, by simp, by simpa using a3, by simpa using a4, ?_, ?_, ?_⟩
      · simp; intro h; have := a3 _ h; simp at this
      · simp
        intro h; have := a3 _ h; simp at this
      · simpa using a4
    · simp only [combine]
      exact ⟨by simpa using a1, by simpa using a2, by simpa using a3, by simpa using a4,
        by simpa using a5, by simpa using a6, by simpa using a7⟩
    · simp [combine]

/-! ### the sort -/

section
variable {M : Type} {ord : M → M → Ord}

theorem precedesAll_iff {m : M} {l : List M} :
    precedesAll ord m l = true ↔ ∀ x ∈ l, ord m x = .lt := by
  simp [precedesAll]

/-- What holds of the two lists all along. -/
structure SInv (ord : M → M → Ord) (o a : List M) : Prop where
  chain : o.Pairwise (fun x y => ord x y = .lt)
  first : ∀ m ∈ o, ∀ m' ∈ a, ord m m' = .lt
  stuck : ∀ m ∈ a, ∃ m' ∈ a, m' ≠ m ∧ ord m m' ≠ .lt

/-- Antisymmetry, and no ties. -/
def Anti (ord : M → M → Ord) (ms : List M) : Prop :=
  ∀ x ∈ ms, ∀ y ∈ ms, (x ≠ y → ord x y ≠ .eq) ∧ (ord x y = .lt ↔ ord y x = .gt)

theorem Anti.asymm {ms : List M} (h : Anti ord ms) {x y : M} (hx : x ∈ ms) (hy : y ∈ ms)
    (e : ord x y = .lt) : ord y x ≠ .lt := by
  rw [(h x hx y hy).2] at e; simp [e]

theorem makeAmbiguous_inv {ms : List M} {m : M} {o a : List M} (hA : Anti ord ms)
    (hms : m ∈ ms) (hos : ∀ x ∈ o, x ∈ ms) (hn : m ∉ o ++ a) (h : SInv ord o a)
    (hne : ∃ x ∈ o ++ a, ord m x ≠ .lt) (hx : ∀ x o', o = x :: o' → ord x m ≠ .lt) :
    SInv ord (makeAmbiguous m o a).1 (makeAmbiguous m o a).2 ∧
    ((makeAmbiguous m o a).1 ++ (makeAmbiguous m o a).2).Perm (m :: (o ++ a)) := by
  refine ⟨⟨by simp [makeAmbiguous], by simp [makeAmbiguous], ?_⟩, ?_⟩
  · intro y hy
    simp only [makeAmbiguous, List.mem_cons, List.mem_append, List.mem_reverse] at hy ⊢
    rcases hy with rfl | hy | hy
    · obtain ⟨x, hx1, hx2⟩ := hne
      exact ⟨x, .inr (by simpa using hx1), fun e => hn (e ▸ hx1), hx2⟩
    · cases o with
      | nil => cases hy
      | cons x o' =>
        rcases List.mem_cons.1 hy with rfl | hy'
        · exact ⟨m, .inl rfl, fun e => hn (by simp [e]), hx y o' rfl⟩
        · have hxy : ord x y = .lt := (List.pairwise_cons.1 h.chain).1 y hy'
          have hyx := hA.asymm (hos x (by simp)) (hos y hy) hxy
          refine ⟨x, .inr (.inl (by simp)), fun e' => ?_, hyx⟩
          subst e'; exact hyx hxy
    · obtain ⟨z, hz1, hz2, hz3⟩ := h.stuck y hy
      exact ⟨z, .inr (.inr hz1), hz2, hz3⟩
  · simp only [makeAmbiguous, List.nil_append]
    exact List.Perm.cons _ ((List.reverse_perm o).append_right a)

theorem checkSubsequent_inv {ms : List M} {m : M} {o a : List M} (hA : Anti ord ms)
    (hms : m ∈ ms) (hos : ∀ x ∈ o, x ∈ ms) (hn : m ∉ o ++ a) (h : SInv ord o a)
    (hx : ∀ x o', o = x :: o' → ord x m ≠ .lt) :
    SInv ord (checkSubsequent ord m o a).1 (checkSubsequent ord m o a).2 ∧
    ((checkSubsequent ord m o a).1 ++ (checkSubsequent ord m o a).2).Perm (m :: (o ++ a)) := by
  unfold checkSubsequent
  split
  · next hc =>
    refine makeAmbiguous_inv hA hms hos hn h ?_ hx
    by_contra hall
    push Not at hall
    have p1 : precedesAll ord m o = true := precedesAll_iff.2 fun x hx => hall x (by simp [hx])
    have p2 : precedesAll ord m a = true := precedesAll_iff.2 fun x hx => hall x (by simp [hx])
    simp [p1, p2] at hc
  · next hc =>
    simp only [Bool.or_eq_true, Bool.not_eq_true', not_or, Bool.not_eq_false] at hc
    have p1 := precedesAll_iff.1 hc.1
    have p2 := precedesAll_iff.1 hc.2
    refine ⟨⟨List.pairwise_cons.2 ⟨p1, h.chain⟩, fun x hx y hy => ?_, h.stuck⟩, by simp⟩
    rcases List.mem_cons.1 hx with rfl | hx
    · exact p2 y hy
    · exact h.first x hx y hy

theorem insertMeth_inv {ms : List M} {m : M} (hA : Anti ord ms) (hms : m ∈ ms) :
    ∀ (o a : List M), (∀ x ∈ o, x ∈ ms) → m ∉ o ++ a → SInv ord o a →
    SInv ord (insertMeth ord m o a).1 (insertMeth ord m o a).2 ∧
    ((insertMeth ord m o a).1 ++ (insertMeth ord m o a).2).Perm (m :: (o ++ a))
  | [], a, hos, hn, h => checkSubsequent_inv hA hms hos hn h (by simp)
  | x :: o, a, hos, hn, h => by
    have hxs : x ∈ ms := hos x (by simp)
    have hmx : m ≠ x := fun e => hn (by simp [e])
    simp only [insertMeth]
    rcases hc : ord m x with _ | _ | _ | _
    · refine checkSubsequent_inv hA hms hos hn h ?_
      rintro _ _ ⟨rfl, rfl⟩
      exact hA.asymm hms hxs hc
    · have hxm : ord x m = .lt := ((hA x hxs m hms).2).2 hc
      have hc' := List.pairwise_cons.1 h.chain
      obtain ⟨i1, i2⟩ := insertMeth_inv hA hms o a (fun y hy => hos y (by simp [hy]))
        (fun hy => hn (by simp at hy ⊢; exact .inr hy))
        ⟨hc'.2, fun y hy => h.first y (by simp [hy]), h.stuck⟩
      have hall : ∀ y ∈ (insertMeth ord m o a).1 ++ (insertMeth ord m o a).2, ord x y = .lt := by
        intro y hy
        have := i2.mem_iff.1 hy
        simp only [List.mem_cons, List.mem_append] at this
        rcases this with rfl | hy | hy
        · exact hxm
        · exact hc'.1 y hy
        · exact h.first x (by simp) y hy
      refine ⟨⟨List.pairwise_cons.2 ⟨fun y hy => hall y (by simp [hy]), i1.chain⟩,
        fun y hy z hz => ?_, i1.stuck⟩, ?_⟩
      · rcases List.mem_cons.1 hy with rfl | hy
        · exact hall z (by simp [hz])
        · exact i1.first y hy z hz
      · exact (i2.cons x).trans (List.Perm.swap _ _ _)
    · exact absurd hc ((hA m hms x hxs).1 hmx)
    · refine makeAmbiguous_inv hA hms hos hn h ⟨x, by simp, by simp [hc]⟩ ?_
      rintro _ _ ⟨rfl, rfl⟩ e
      have := (hA x hxs m hms).2.1 e
      simp [hc] at this

theorem sortFrom_inv {ms : List M} (hA : Anti ord ms) : ∀ (l o a : List M),
    (∀ x ∈ l, x ∈ ms) → (∀ x ∈ o ++ a, x ∈ ms) → (l ++ (o ++ a)).Nodup → SInv ord o a →
    SInv ord (sortFrom ord l (o, a)).1 (sortFrom ord l (o, a)).2 ∧
    ((sortFrom ord l (o, a)).1 ++ (sortFrom ord l (o, a)).2).Perm (l ++ (o ++ a))
  | [], o, a, _, _, _, h => ⟨h, by simp [sortFrom]⟩
  | m :: l, o, a, hl, ho, hn, h => by
    have hms : m ∈ ms := hl m (by simp)
    have hn1 := List.nodup_cons.1 hn
    obtain ⟨i1, i2⟩ := insertMeth_inv hA hms o a (fun x hx => ho x (by simp [hx]))
      (fun h => hn1.1 (by simp at h ⊢; exact .inr h)) h
    have hp : (l ++ ((insertMeth ord m o a).1 ++ (insertMeth ord m o a).2)).Perm
        (m :: (l ++ (o ++ a))) := (i2.append_left l).trans List.perm_middle
    have hsub : ∀ x ∈ (insertMeth ord m o a).1 ++ (insertMeth ord m o a).2, x ∈ ms :=
      fun x hx => by
        have := i2.mem_iff.1 hx
        rcases List.mem_cons.1 this with rfl | h
        · exact hms
        · exact ho x h
    obtain ⟨j1, j2⟩ := sortFrom_inv hA l _ _ (fun x hx => hl x (by simp [hx])) hsub
      (hp.nodup_iff.2 hn) i1
    exact ⟨j1, j2.trans hp⟩

end
end Verif.Dispatch
