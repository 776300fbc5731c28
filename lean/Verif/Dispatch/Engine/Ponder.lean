/-
Helper lemmas for the dispatch cache: what pondering an argument position finds out, and sorting
by comparisons that agree.
-/
import Verif.Dispatch.Engine.Lemmas
import Mathlib.Data.List.Induction

namespace Verif.Dispatch
open Verif.Types
variable {C : Type} [DecidableEq C] {K : DWorld C}

theorem sameSpec_sound (hK : DLawful K) {s t : Ty C} (hs : Fine K s) (ht : Fine K t)
    (h : sameSpec K s t = true) : SameInst K s t := by
  have key : (s = t ∨ (Sub K s t ∧ Sub K t s)) → SameInst K s t := by
    rintro (rfl | ⟨h1, h2⟩)
    · exact fun x => Iff.rfl
    · exact fun x => ⟨sub_sound hK hs ht h1, sub_sound hK ht hs h2⟩
  apply key
  cases s with
  | cls c => simp only [sameSpec, decide_eq_true_eq] at h; exact .inl h
  | single o => cases t <;> simp_all [sameSpec]
  | subclass c => cases t <;> simp_all [sameSpec]
  | _ =>
    simp only [sameSpec, Bool.or_eq_true, decide_eq_true_eq, Bool.and_eq_true] at h
    exact h.imp id fun h => ⟨isSub_iff.1 h.1, isSub_iff.1 h.2⟩

/-- What `ponder` tells. -/
structure PonderSpec (K : DWorld C) (a : Nat) (c : C) (ms : List (Meth C)) (p : Pondered C) :
    Prop where
  sec : p.secondary = false → ∀ m ∈ ms, secondary K c (spec K m a) = false
  force : p.force = false → ∀ m ∈ ms, requiresClass m a = false
  allSub : p.allSub = true → ∀ m ∈ ms, Sub K (.cls K.objC) (spec K m a)
  someSub : p.someSub = false → ∀ m ∈ ms, ¬ Sub K (.cls K.objC) (spec K m a)
  exc0 : p.exc = .no → ∀ m ∈ ms, Sub K (.cls K.objC) (spec K m a)
  exc : ∀ t, p.exc = .one t → (∃ m ∈ ms, spec K m a = t) ∧
    ∀ m ∈ ms, Sub K (.cls K.objC) (spec K m a) ∨ SameInst K (spec K m a) t

theorem ponder_spec (hK : DLawful K) (a : Nat) (c : C) (ms : List (Meth C))
    (hf : ∀ m ∈ ms, Fine K (spec K m a)) : PonderSpec K a c ms (ponder K a c ms) := by
  induction ms using List.reverseRecOn with
  | nil => exact ⟨by simp, by simp, by simp, by simp, by simp, by simp [ponder]⟩
  | append_singleton ms m ih =>
    have ih := ih fun x hx => hf x (by simp [hx])
    have hm := hf m (by simp)
    have e : ponder K a c (ms ++ [m]) = ponderStep K a c (ponder K a c ms) m := by
      simp [ponder]
    rw [e]
    generalize ponder K a c ms = p at ih
    unfold ponderStep
    by_cases h : isSub K.toWorld (.cls K.objC) (spec K m a) = true
    · have hS : Sub K (.cls K.objC) (spec K m a) := isSub_iff.1 h
      simp only [h, if_true]
      refine ⟨?_, ?_, ?_, by simp, ?_, ?_⟩
      · simp only [Bool.or_eq_false_iff]
        rintro ⟨h1, h2⟩ x hx
        rcases List.mem_append.1 hx with hx | hx
        · exact ih.sec h1 x hx
        · simp at hx; subst hx; exact h2
      · simp only [Bool.or_eq_false_iff]
        rintro ⟨h1, h2⟩ x hx
        rcases List.mem_append.1 hx with hx | hx
        · exact ih.force h1 x hx
        · simp at hx; subst hx; exact h2
      · intro h1 x hx
        rcases List.mem_append.1 hx with hx | hx
        · exact ih.allSub h1 x hx
        · simp at hx; subst hx; exact hS
      · intro h1 x hx
        rcases List.mem_append.1 hx with hx | hx
        · exact ih.exc0 h1 x hx
        · simp at hx; subst hx; exact hS
      · intro t h1
        obtain ⟨⟨m', h2, h3⟩, h4⟩ := ih.exc t h1
        refine ⟨⟨m', by simp [h2], h3⟩, fun x hx => ?_⟩
        rcases List.mem_append.1 hx with hx | hx
        · exact h4 x hx
        · simp at hx; subst hx; exact .inl hS
    · have hS : ¬ Sub K (.cls K.objC) (spec K m a) := fun h' => h (isSub_iff.2 h')
      rw [if_neg h]
      refine ⟨?_, ?_, by simp, ?_, ?_, ?_⟩
      · simp only [Bool.or_eq_false_iff]
        rintro ⟨h1, h2⟩ x hx
        rcases List.mem_append.1 hx with hx | hx
        · exact ih.sec h1 x hx
        · simp at hx; subst hx; exact h2
      · simp only [Bool.or_eq_false_iff]
        rintro ⟨h1, h2⟩ x hx
        rcases List.mem_append.1 hx with hx | hx
        · exact ih.force h1 x hx
        · simp at hx; subst hx; exact h2
      · intro h1 x hx
        rcases List.mem_append.1 hx with hx | hx
        · exact ih.someSub h1 x hx
        · simp at hx; subst hx; exact hS
      · simp only [nextExc]
        rcases p.exc with _ | t | _
        · simp
        · simp only; split <;> simp
        · simp
      · intro t h1
        simp only [nextExc] at h1
        rcases he : p.exc with _ | u | _
        · rw [he] at h1
          simp only [Exc.one.injEq] at h1
          refine ⟨⟨m, by simp, h1⟩, fun x hx => ?_⟩
          rcases List.mem_append.1 hx with hx | hx
          · exact .inl (ih.exc0 he x hx)
          · simp at hx; subst hx; rw [h1]; exact .inr fun _ => Iff.rfl
        · rw [he] at h1
          simp only at h1
          split at h1
          · next hs =>
            simp only [Exc.one.injEq] at h1
            obtain ⟨⟨m', h2, h3⟩, h4⟩ := ih.exc u he
            have hsame := sameSpec_sound hK (by rw [← h3]; exact hf m' (by simp [h2])) hm hs
            refine ⟨⟨m, by simp, h1⟩, fun x hx => ?_⟩
            rcases List.mem_append.1 hx with hx | hx
            · rw [← h1]; exact (h4 x hx).imp id fun h => h.trans hsame
            · simp at hx; subst hx; rw [h1]; exact .inr fun _ => Iff.rfl
          · cases h1
        · rw [he] at h1; cases h1

/-- Limited types as they are collected. -/
def IsLim : Ty C → Prop
  | .limInt _ => True
  | .limFun _ => True
  | .limColl _ _ _ _ => True
  | _ => False

/-- What `ponder-a-specializer` adds. -/
theorem ponderSpec_spec {c : C} : ∀ (t : Ty C) (i : SubInfo C),
    ((ponderSpec K c t i).subclassP = true ↔
      i.subclassP = true ∨ ∃ d, Ty.subclass d ∈ t.members) ∧
    (∀ o, o ∈ (ponderSpec K c t i).singletons ↔
      o ∈ i.singletons ∨ (Ty.single o ∈ t.members ∧ classOf K.toWorld o = c)) ∧
    (∀ u, u ∈ (ponderSpec K c t i).others ↔
      u ∈ i.others ∨ (u ∈ t.members ∧ IsLim u ∧ (groundedHas K c u).1 = true)) := by
  intro t
  induction t using Ty.rec (motive_2 := fun _ => True) with
  | union a b iha ihb =>
    intro i
    obtain ⟨a1, a2, a3⟩ := iha i
    obtain ⟨b1, b2, b3⟩ := ihb (ponderSpec K c a i)
    simp only [ponderSpec, Ty.members, List.mem_append]
    refine ⟨?_, fun o => ?_, fun u => ?_⟩
    · rw [b1, a1, or_assoc, ← exists_or]
    · rw [b2, a2]; tauto
    · rw [b3, a3]; tauto
  | cls d => intro i; simp [ponderSpec, Ty.members, IsLim]
  | single o =>
    intro i
    by_cases h : classOf K.toWorld o = c
    · simp only [ponderSpec, h, if_true, Ty.members]
      refine ⟨by simp, fun o' => ?_, fun u => ?_⟩
      · simp only [List.mem_cons, List.not_mem_nil, or_false, Ty.single.injEq]
        constructor
        · rintro (rfl | h')
          · exact .inr ⟨rfl, h⟩
          · exact .inl h'
        · rintro (h' | ⟨rfl, -⟩)
          · exact .inr h'
          · exact .inl rfl
      · simp; rintro rfl h; exact h.elim
    · simp only [ponderSpec, h, if_false, Ty.members]
      refine ⟨by simp, fun o' => ?_, fun u => ?_⟩
      · simp; rintro rfl h'; exact absurd h' h
      · simp; rintro rfl h; exact h.elim
  | subclass d => intro i; simp [ponderSpec, Ty.members, IsLim]
  | limInt | limFun | limColl =>
    intro i
    simp only [ponderSpec, Ty.members, List.mem_singleton]
    split
    · next h =>
      refine ⟨by simp, by simp, fun u => ?_⟩
      simp only [List.mem_cons]
      constructor
      · rintro (rfl | h')
        · exact .inr ⟨rfl, trivial, h⟩
        · exact .inl h'
      · rintro (h' | ⟨rfl, -, -⟩)
        · exact .inr h'
        · exact .inl rfl
    · next h =>
      refine ⟨by simp, by simp, fun u => ?_⟩
      constructor
      · exact .inl
      · rintro (h' | ⟨rfl, -, h'⟩)
        · exact h'
        · exact absurd h' h
  | _ => trivial

/-- What `ponderSub` collects. -/
theorem ponderSub_spec (a : Nat) (c : C) (ms : List (Meth C)) :
    ((ponderSub K a c ms).subclassP = true ↔
      ∃ m ∈ ms, ∃ d, Ty.subclass d ∈ (spec K m a).members) ∧
    (∀ o, o ∈ (ponderSub K a c ms).singletons ↔
      ∃ m ∈ ms, Ty.single o ∈ (spec K m a).members ∧ classOf K.toWorld o = c) ∧
    (∀ u, u ∈ (ponderSub K a c ms).others ↔
      ∃ m ∈ ms, u ∈ (spec K m a).members ∧ IsLim u ∧ (groundedHas K c u).1 = true) := by
  induction ms using List.reverseRecOn with
  | nil => simp [ponderSub]
  | append_singleton ms m ih =>
    have e : ponderSub K a c (ms ++ [m]) = ponderSpec K c (spec K m a) (ponderSub K a c ms) := by
      simp [ponderSub]
    obtain ⟨h1, h2, h3⟩ := ponderSpec_spec (K := K) (c := c) (spec K m a) (ponderSub K a c ms)
    rw [e]
    refine ⟨?_, fun o => ?_, fun u => ?_⟩
    · rw [h1, ih.1]; simp only [List.mem_append, List.mem_singleton, or_and_right, exists_or,
        exists_eq_left]
    · rw [h2, ih.2.1]; simp only [List.mem_append, List.mem_singleton, or_and_right, exists_or,
        exists_eq_left]
    · rw [h3, ih.2.2]; simp only [List.mem_append, List.mem_singleton, or_and_right, exists_or,
        exists_eq_left]

/-! ### sorting by comparisons that agree -/

section
variable {M : Type} {ord ord' : M → M → Ord}

theorem insertMeth_mem {m : M} : ∀ (o a : List M) (x : M),
    x ∈ (insertMeth ord m o a).1 ∨ x ∈ (insertMeth ord m o a).2 → x = m ∨ x ∈ o ∨ x ∈ a
  | [], a, x => by
    simp only [insertMeth, checkSubsequent]
    split
    · simp [makeAmbiguous]
    · simp only [List.mem_cons]; tauto
  | y :: o, a, x => by
    simp only [insertMeth]
    rcases ord m y with _ | _ | _ | _
    · simp only [checkSubsequent]
      split
      · simp [makeAmbiguous]; tauto
      · simp only [List.mem_cons]; tauto
    · simp only [List.mem_cons]
      have := insertMeth_mem (m := m) o a x
      tauto
    · simp only [List.mem_cons]; tauto
    · simp [makeAmbiguous]; tauto

theorem precedesAll_congr {m : M} {l : List M} (h : ∀ x ∈ l, ord m x = ord' m x) :
    precedesAll ord m l = precedesAll ord' m l := by
  rw [Bool.eq_iff_iff, precedesAll_iff, precedesAll_iff]
  exact forall_congr' fun x => forall_congr' fun hx => by rw [h x hx]

theorem insertMeth_congr {m : M} : ∀ (o a : List M), (∀ x ∈ o, ord m x = ord' m x) →
    (∀ x ∈ a, ord m x = ord' m x) → insertMeth ord m o a = insertMeth ord' m o a
  | [], a, _, ha => by
    simp only [insertMeth, checkSubsequent, precedesAll_congr ha,
      precedesAll_congr (ord := ord) (ord' := ord') (m := m) (l := []) (by simp)]
  | y :: o, a, ho, ha => by
    simp only [insertMeth, checkSubsequent, precedesAll_congr ha, precedesAll_congr ho,
      insertMeth_congr o a (fun x hx => ho x (by simp [hx])) ha, ho y (by simp)]

theorem sortFrom_congr {S : M → Prop} (h : ∀ x y, S x → S y → ord x y = ord' x y) :
    ∀ (l o a : List M), (∀ x ∈ l, S x) → (∀ x ∈ o, S x) → (∀ x ∈ a, S x) →
    sortFrom ord l (o, a) = sortFrom ord' l (o, a)
  | [], _, _, _, _, _ => rfl
  | m :: l, o, a, hl, ho, ha => by
    have hm := hl m (by simp)
    have e := insertMeth_congr (ord := ord) (ord' := ord') (m := m) o a
      (fun x hx => h m x hm (ho x hx)) (fun x hx => h m x hm (ha x hx))
    simp only [sortFrom]
    rw [← e]
    have hmem : ∀ x, x ∈ (insertMeth ord m o a).1 ∨ x ∈ (insertMeth ord m o a).2 → S x := by
      intro x hx
      rcases insertMeth_mem o a x hx with rfl | hx | hx
      · exact hm
      · exact ho x hx
      · exact ha x hx
    exact sortFrom_congr h l _ _ (fun x hx => hl x (by simp [hx]))
      (fun x hx => hmem x (.inl hx)) (fun x hx => hmem x (.inr hx))

theorem sortMethods_congr {ms : List M} (h : ∀ x ∈ ms, ∀ y ∈ ms, ord x y = ord' x y) :
    sortMethods ord ms = sortMethods ord' ms :=
  sortFrom_congr (S := fun x => x ∈ ms) (fun x y hx hy => h x hx y hy) ms [] []
    (fun _ h => h) (by simp) (by simp)

theorem sortFrom_mem : ∀ (l o a : List M) (x : M),
    x ∈ (sortFrom ord l (o, a)).1 ∨ x ∈ (sortFrom ord l (o, a)).2 → x ∈ l ∨ x ∈ o ∨ x ∈ a
  | [], o, a, x => by simp [sortFrom]
  | m :: l, o, a, x => by
    intro hx
    simp only [sortFrom] at hx
    rcases sortFrom_mem l _ _ x hx with h | h | h
    · simp [h]
    · rcases insertMeth_mem o a x (.inl h) with h | h | h <;> simp [h]
    · rcases insertMeth_mem o a x (.inr h) with h | h | h <;> simp [h]

theorem sortMethods_mem {ms : List M} {x : M}
    (h : x ∈ (sortMethods ord ms).1 ∨ x ∈ (sortMethods ord ms).2) : x ∈ ms := by
  have := sortFrom_mem ms [] [] x h
  simpa using this

theorem insertMeth_ne {m : M} : ∀ (o a : List M),
    ¬ ((insertMeth ord m o a).1 = [] ∧ (insertMeth ord m o a).2 = [])
  | [], a => by
    simp only [insertMeth, checkSubsequent]
    split <;> simp [makeAmbiguous]
  | y :: o, a => by
    simp only [insertMeth]
    rcases ord m y with _ | _ | _ | _
    · simp only [checkSubsequent]
      split <;> simp [makeAmbiguous]
    · simp
    · simp
    · simp [makeAmbiguous]

theorem sortFrom_ne : ∀ (l o a : List M), ¬ (o = [] ∧ a = []) →
    ¬ ((sortFrom ord l (o, a)).1 = [] ∧ (sortFrom ord l (o, a)).2 = [])
  | [], o, a, h => by simpa [sortFrom] using h
  | m :: l, o, a, _ => by
    simp only [sortFrom]
    exact sortFrom_ne l _ _ (insertMeth_ne o a)

theorem sortMethods_nil {ms : List M} :
    ((sortMethods ord ms).1 = [] ∧ (sortMethods ord ms).2 = []) ↔ ms = [] := by
  cases ms with
  | nil => simp [sortMethods, sortFrom]
  | cons m l =>
    simp only [sortMethods, sortFrom, reduceCtorEq, iff_false]
    exact sortFrom_ne l _ _ (insertMeth_ne (ord := ord) [] [])
end

end Verif.Dispatch
