/-
Extending the dispatch cache keeps its invariant.
-/
import Verif.Dispatch.Engine.Invariant

namespace Verif.Dispatch
open Verif.Types
section
variable {C : Type} [DecidableEq C] {K : DWorld C} {nreq : Nat} {ms0 : List (Meth C)}

theorem Regular.fine (hR : Regular K nreq ms0) {a : Nat} (ha : a < nreq) {m : Meth C}
    (hm : m ∈ ms0) : Fine K (spec K m a) := fun u hu =>
  ⟨hR.noColl a ha u ⟨m, hm, hu⟩, hR.noSubclass a ha u ⟨m, hm, hu⟩,
    fun mn mx e => hR.bounds a ha mn mx ⟨m, hm, e ▸ hu⟩⟩

theorem members_leaf : ∀ {t u : Ty C}, u ∈ t.members → Leaf u := by
  intro t
  induction t using Ty.rec (motive_2 := fun _ => True) with
  | union a b iha ihb =>
    intro u h
    simp only [Ty.members, List.mem_append] at h
    exact h.elim iha ihb
  | cls | single | limInt | subclass | limFun | limColl =>
    intro u h; simp [Ty.members] at h; subst h; intro p q h; cases h
  | _ => trivial

theorem fine_member {t u : Ty C} (h : Fine K t) (hu : u ∈ t.members) : Fine K u := by
  intro v hv
  rw [members_self (members_leaf hu)] at hv
  simp at hv
  subst hv
  exact h v hu

theorem Uniform.of_mem {Q : Args C → Prop} {D : Set Nat} (h : ∀ x, Q x → Uniform K ms0 Q D) :
    Uniform K ms0 Q D :=
  ⟨fun x y hx hy => (h x hx).app x y hx hy, fun x y hx hy => (h x hx).ord x y hx hy,
    fun x y hx hy => (h x hx).off x y hx hy⟩

/-! ### type tests -/

theorem subsumed_iff {t : Ty C} {l : List (Ty C)} :
    subsumed K t l = true ↔ ∃ u ∈ l, Sub K t u := by
  simp [subsumed, isSub_iff, Sub]

theorem nestIfs_wf (hK : DLawful K) {a : Nat} (ha : a < nreq) {D : Set Nat} (haD : a ∈ D)
    (args : Args C) (S : Ty C → Prop) (hS : ∀ s, S s → Fine K s)
    (hS2 : ∀ s u, S s → S u → Sub K s u → Sub K u s) :
    ∀ (l trues falses : List (Ty C)) (nextd : Node C) (Q : Args C → Prop),
    (∀ s ∈ l, S s) → (∀ s ∈ trues, S s) → (∀ s ∈ falses, S s) →
    (∀ y, Q y → ∀ t ∈ trues, Inst K (y a) t) → (∀ y, Q y → ∀ t ∈ falses, ¬ Inst K (y a) t) →
    (∀ z : Args C, Uniform K ms0 (fun y => Q y ∧ ∀ t ∈ l, (Inst K (y a) t ↔ Inst K (z a) t)) D) →
    (nextd = .absent ∨
      WF K nreq ms0 nextd (fun y => Q y ∧ ∀ t ∈ l, (Inst K (y a) t ↔ Inst K (args a) t)) D) →
    WF K nreq ms0 (nestIfs K a (args a) l trues falses nextd) Q D
  | [], trues, falses, nextd, Q, _, _, _, _, _, hu, hn => by
    simp only [nestIfs]
    rcases hn with rfl | hn
    · simp only [WF]
      exact (hu args).mono fun x hx => ⟨hx, by simp⟩
    · exact WF_mono nextd (fun x hx => ⟨hx, by simp⟩) hn
  | s :: rest, trues, falses, nextd, Q, hl, ht, hf, hqt, hqf, hu, hn => by
    have hs := hl s (by simp)
    have hrest : ∀ t ∈ rest, S t := fun t h => hl t (by simp [h])
    -- one side, on which `s` is decided
    have side : ∀ (b : Prop) (Q' : Args C → Prop) (nd : Node C) (tr fa : List (Ty C)),
        (∀ y, Q' y → Q y ∧ (Inst K (y a) s ↔ b)) → (∀ t ∈ tr, S t) → (∀ t ∈ fa, S t) →
        (∀ y, Q' y → ∀ t ∈ tr, Inst K (y a) t) → (∀ y, Q' y → ∀ t ∈ fa, ¬ Inst K (y a) t) →
        (nd = .absent ∨ (nd = nextd ∧ (Inst K (args a) s ↔ b))) →
        WF K nreq ms0 (nestIfs K a (args a) rest tr fa nd) Q' D := by
      intro b Q' nd tr fa hQ' htr hfa h1 h2 hnd
      refine nestIfs_wf hK ha haD args S hS hS2 rest tr fa nd Q' hrest htr hfa h1 h2 ?_ ?_
      · intro z
        refine Uniform.of_mem fun x0 hx0 => (hu x0).mono fun y hy => ⟨(hQ' y hy.1).1, ?_⟩
        intro t htm
        rcases List.mem_cons.1 htm with rfl | htm
        · rw [(hQ' y hy.1).2, (hQ' x0 hx0.1).2]
        · rw [hy.2 t htm, hx0.2 t htm]
      · rcases hnd with rfl | ⟨rfl, hb⟩
        · exact .inl rfl
        · rcases hn with hn | hn
          · exact .inl hn
          · refine .inr (WF_mono nd (fun y hy => ⟨(hQ' y hy.1).1, ?_⟩) hn)
            intro t htm
            rcases List.mem_cons.1 htm with rfl | htm
            · rw [(hQ' y hy.1).2, hb]
            · exact hy.2 t htm
    have hb1 : (if nextd = Node.absent then (nextd, nextd)
        else if isInst K.toWorld (args a) s = true then (nextd, .absent)
        else (.absent, nextd) : Node C × Node C).1 = .absent ∨
        ((if nextd = Node.absent then (nextd, nextd)
        else if isInst K.toWorld (args a) s = true then (nextd, .absent)
        else (.absent, nextd) : Node C × Node C).1 = nextd ∧ (Inst K (args a) s ↔ True)) := by
      split
      · next h => exact .inl h
      · split
        · next h => exact .inr ⟨rfl, iff_of_true (isInst_iff.1 h) trivial⟩
        · exact .inl rfl
    have hb2 : (if nextd = Node.absent then (nextd, nextd)
        else if isInst K.toWorld (args a) s = true then (nextd, .absent)
        else (.absent, nextd) : Node C × Node C).2 = .absent ∨
        ((if nextd = Node.absent then (nextd, nextd)
        else if isInst K.toWorld (args a) s = true then (nextd, .absent)
        else (.absent, nextd) : Node C × Node C).2 = nextd ∧ (Inst K (args a) s ↔ False)) := by
      split
      · next h => exact .inl h
      · split
        · exact .inl rfl
        · next h => exact .inr ⟨rfl, iff_of_false (fun h' => h (isInst_iff.2 h')) id⟩
    simp only [nestIfs]
    split
    · next h =>
      obtain ⟨u, hu1, hu2⟩ := subsumed_iff.1 h
      have hus := hS2 s u hs (ht u hu1) hu2
      exact side True Q _ trues falses
        (fun y hy => ⟨hy, by
          simpa using sub_sound hK (hS u (ht u hu1)) (hS s hs) hus (hqt y hy u hu1)⟩)
        ht hf hqt hqf hb1
    · split
      · next h =>
        obtain ⟨u, hu1, hu2⟩ := subsumed_iff.1 h
        exact side False Q _ trues falses
          (fun y hy => ⟨hy, by
            simpa using fun h' => hqf y hy u hu1 (sub_sound hK (hS s hs) (hS u (hf u hu1)) hu2 h')⟩)
          ht hf hqt hqf hb2
      · simp only [WF, Set.insert_eq_of_mem haD]
        refine ⟨ha, ?_, ?_⟩
        · refine side True _ _ (s :: trues) falses (fun y hy => ⟨hy.1, by simpa using hy.2⟩) ?_ hf
            ?_ (fun y hy => hqf y hy.1) hb1
          · intro t h; rcases List.mem_cons.1 h with rfl | h
            · exact hs
            · exact ht t h
          · intro y hy t h; rcases List.mem_cons.1 h with rfl | h
            · exact hy.2
            · exact hqt y hy.1 t h
        · refine side False _ _ trues (s :: falses) (fun y hy => ⟨hy.1, by simpa using hy.2⟩) ht ?_
            (fun y hy => hqt y hy.1) ?_ hb2
          · intro t h; rcases List.mem_cons.1 h with rfl | h
            · exact hs
            · exact hf t h
          · intro y hy t h; rcases List.mem_cons.1 h with rfl | h
            · exact hy.2
            · exact hqf y hy.1 t h

theorem nestIfs_run (hK : DLawful K) {a : Nat} (args : Args C) (S : Ty C → Prop)
    (hS : ∀ s, S s → Fine K s) (hS2 : ∀ s u, S s → S u → Sub K s u → Sub K u s) :
    ∀ (l trues falses : List (Ty C)) (nextd : Node C),
    (∀ s ∈ l, S s) → (∀ s ∈ trues, S s) → (∀ s ∈ falses, S s) →
    (∀ t ∈ trues, Inst K (args a) t) → (∀ t ∈ falses, ¬ Inst K (args a) t) →
    run K args (nestIfs K a (args a) l trues falses nextd) = run K args nextd
  | [], _, _, _, _, _, _, _, _ => rfl
  | s :: rest, trues, falses, nextd, hl, ht, hf, hqt, hqf => by
    have hs := hl s (by simp)
    have hrest : ∀ t ∈ rest, S t := fun t h => hl t (by simp [h])
    have hb1 : Inst K (args a) s → (if nextd = Node.absent then (nextd, nextd)
        else if isInst K.toWorld (args a) s = true then (nextd, .absent)
        else (.absent, nextd) : Node C × Node C).1 = nextd := by
      intro h; have : isInst K.toWorld (args a) s = true := isInst_iff.2 h
      split
      · rfl
      · simp [this]
    have hb2 : ¬ Inst K (args a) s → (if nextd = Node.absent then (nextd, nextd)
        else if isInst K.toWorld (args a) s = true then (nextd, .absent)
        else (.absent, nextd) : Node C × Node C).2 = nextd := by
      intro h; have : ¬ isInst K.toWorld (args a) s = true := fun h' => h (isInst_iff.1 h')
      split
      · rfl
      · simp [this]
    simp only [nestIfs]
    split
    · next h =>
      obtain ⟨u, hu1, hu2⟩ := subsumed_iff.1 h
      have hi := sub_sound hK (hS u (ht u hu1)) (hS s hs) (hS2 s u hs (ht u hu1) hu2) (hqt u hu1)
      rw [nestIfs_run hK args S hS hS2 rest _ _ _ hrest ht hf hqt hqf, hb1 hi]
    · split
      · next h =>
        obtain ⟨u, hu1, hu2⟩ := subsumed_iff.1 h
        have hi : ¬ Inst K (args a) s :=
          fun h' => hqf u hu1 (sub_sound hK (hS s hs) (hS u (hf u hu1)) hu2 h')
        rw [nestIfs_run hK args S hS hS2 rest _ _ _ hrest ht hf hqt hqf, hb2 hi]
      · simp only [run]
        by_cases hi : Inst K (args a) s
        · rw [if_pos (isInst_iff.2 hi), nestIfs_run hK args S hS hS2 rest _ _ _ hrest ?_ hf ?_ hqf,
            hb1 hi]
          · intro t h; rcases List.mem_cons.1 h with rfl | h
            · exact hs
            · exact ht t h
          · intro t h; rcases List.mem_cons.1 h with rfl | h
            · exact hi
            · exact hqt t h
        · rw [if_neg (fun h => hi (isInst_iff.1 h)),
            nestIfs_run hK args S hS hS2 rest _ _ _ hrest ht ?_ hqt ?_, hb2 hi]
          · intro t h; rcases List.mem_cons.1 h with rfl | h
            · exact hs
            · exact hf t h
          · intro t h; rcases List.mem_cons.1 h with rfl | h
            · exact hi
            · exact hqf t h

/-! ### singleton tables -/

theorem singlesTbl_hasKey {x key : Obj C} : ∀ (l : List (Obj C)) (n : Node C),
    hasKey key (singlesTbl x n l) = decide (key ∈ l)
  | [], n => by simp [singlesTbl, hasKey]
  | o :: l, n => by
    simp only [singlesTbl]
    split
    · simp only [hasKey, singlesTbl_hasKey l]
      by_cases h : o = key <;> simp [h]
      intro h'; exact absurd h'.symm h
    · simp only [hasKey, singlesTbl_hasKey l]
      by_cases h : o = key <;> simp [h]
      intro h'; exact absurd h'.symm h

theorem singlesTbl_run {args : Args C} {x key : Obj C} {d : Node C} : ∀ (l : List (Obj C))
    (n : Node C), (x ∈ l → runTbl K args x (singlesTbl x n l) d = run K args n) ∧
      (key ∉ l → runTbl K args key (singlesTbl x n l) d = d)
  | [], n => by simp [singlesTbl, runTbl]
  | o :: l, n => by
    obtain ⟨h1, h2⟩ := singlesTbl_run (args := args) (x := x) (key := key) (d := d) l n
    obtain ⟨h3, h4⟩ := singlesTbl_run (args := args) (x := x) (key := key) (d := d) l .absent
    simp only [singlesTbl]
    split
    · next e =>
      simp only [runTbl, e, if_true]
      refine ⟨fun _ => trivial, fun h => ?_⟩
      simp only [List.mem_cons, not_or] at h
      rw [if_neg (fun e' => h.1 e'.symm), h4 h.2]
    · next e =>
      simp only [runTbl, if_neg e]
      refine ⟨fun h => h1 ?_, fun h => ?_⟩
      · rcases List.mem_cons.1 h with h | h
        · exact absurd h.symm e
        · exact h
      · simp only [List.mem_cons, not_or] at h
        rw [if_neg (fun e' => h.1 e'.symm), h2 h.2]

theorem singlesTbl_wf {a : Nat} {x : Obj C} {Q : Args C → Prop} {D : Set Nat}
    (hu : ∀ o, Uniform K ms0 (fun y => Q y ∧ y a = o) (insert a D)) : ∀ (l : List (Obj C))
    (n : Node C), WF K nreq ms0 n (fun y => Q y ∧ y a = x) (insert a D) →
    WFT K nreq ms0 .singles a (singlesTbl x n l) Q D
  | [], _, _ => by simp [singlesTbl, WFT]
  | o :: l, n, h => by
    simp only [singlesTbl]
    split
    · next e =>
      subst e
      simp only [WFT]
      exact ⟨.inr (by simpa [keyOf] using h), singlesTbl_wf hu l .absent (by simp only [WF]; exact hu o)⟩
    · simp only [WFT]
      exact ⟨.inr (by simp only [WF, keyOf]; exact hu o), singlesTbl_wf hu l n h⟩

end
end Verif.Dispatch
