import Verif.Sort.Model
import Verif.Sort.Spec
/-! # Helper lemmas for sorting -/
namespace Verif.Sort

variable {α : Type}

@[simp] theorem bind_ok {β γ : Type} (b : β) (f : β → Res γ) : (Res.ok b >>= f) = f b := rfl
@[simp] theorem pure_ok {β : Type} (b : β) : (pure b : Res β) = Res.ok b := rfl

theorem rd_at (A B : List α) (x : α) {i : Nat} (h : i = A.length) : rd (A ++ x :: B) i = .ok x := by
  subst h; simp [rd]

theorem wr_at (A B : List α) (x y : α) {i : Nat} (h : i = A.length) :
    wr (A ++ x :: B) i y = .ok (A ++ y :: B) := by
  subst h; simp [wr]

theorem rd_get {v : List α} {i : Nat} {x : α} (h : v[i]? = some x) : rd v i = .ok x := by
  simp [rd, h]

/-! ## Insertion sort -/

theorem insertLoop_spec (lt : α → α → Bool) (A : List α) (c : α) :
    ∀ (P : List α) (x : α) (Q : List α), ∃ P1 P2, P = P1 ++ P2 ∧ (∀ y ∈ P2, lt c y = true) ∧
      (∀ P1' y, P1 = P1' ++ [y] → lt c y = false) ∧
      insertLoop lt A.length c P.length (A ++ (P ++ x :: Q)) = .ok (A ++ (P1 ++ c :: P2 ++ Q)) := by
  intro P
  induction hn : P.length generalizing P with
  | zero =>
    intro x Q
    have : P = [] := List.length_eq_zero_iff.1 hn
    subst this
    refine ⟨[], [], rfl, by simp, by simp, ?_⟩
    simp only [insertLoop, List.nil_append]
    rw [wr_at A Q x c rfl]; rfl
  | succ n ih =>
    intro x Q
    have hne : P ≠ [] := by intro h; rw [h] at hn; simp at hn
    obtain ⟨P', y, rfl⟩ : ∃ P' y, P = P' ++ [y] := ⟨P.dropLast, P.getLast hne, (List.dropLast_concat_getLast hne).symm⟩
    have hn' : P'.length = n := by simpa using hn
    simp only [insertLoop]
    have e1 : A ++ (P' ++ [y] ++ x :: Q) = (A ++ P') ++ y :: (x :: Q) := by simp
    have e2 : A ++ (P' ++ [y] ++ x :: Q) = (A ++ P' ++ [y]) ++ x :: Q := by simp
    have hr : rd (A ++ (P' ++ [y] ++ x :: Q)) (A.length + n) = .ok y := by
      rw [e1]; apply rd_at; simp [hn']
    rw [hr, bind_ok]
    by_cases hlt : lt c y = true
    · rw [if_pos hlt]
      have hw : wr (A ++ (P' ++ [y] ++ x :: Q)) (A.length + n + 1) y
          = .ok ((A ++ P' ++ [y]) ++ y :: Q) := by
        rw [e2]; apply wr_at; simp [hn']; omega
      rw [hw, bind_ok]
      obtain ⟨P1, P2, h1, h2, h3, h4⟩ := ih P' hn' y (y :: Q)
      have e3 : A ++ P' ++ [y] ++ y :: Q = A ++ (P' ++ y :: (y :: Q)) := by simp
      rw [e3, h4]
      refine ⟨P1, P2 ++ [y], by rw [h1]; simp, ?_, h3, by simp⟩
      intro z hz
      rcases List.mem_append.1 hz with hz | hz
      · exact h2 z hz
      · rw [List.mem_singleton.1 hz]; exact hlt
    · rw [if_neg hlt]
      refine ⟨P' ++ [y], [], by simp, by simp, ?_, ?_⟩
      · intro P1' z h
        have := List.append_inj_right' h rfl
        simp only [List.cons.injEq, and_true] at this
        rw [← this]; simpa using hlt
      · rw [e2]
        rw [wr_at _ _ _ _ (by simp [hn']; omega)]
        simp

theorem StrictWeakOrder.asymm {lt : α → α → Bool} (o : StrictWeakOrder lt) {x y : α}
    (h : lt x y = true) : lt y x = false := by
  cases h' : lt y x
  · rfl
  · have := o.trans _ _ _ h h'
    rw [o.irrefl] at this; cases this

/-- Inserting as `insertLoop` does keeps sortedness. -/
theorem insert_sorted {lt : α → α → Bool} (o : StrictWeakOrder lt) {P1 P2 : List α} {c : α}
    (hs : Sorted lt (P1 ++ P2)) (h2 : ∀ y ∈ P2, lt c y = true)
    (h1 : ∀ P1' y, P1 = P1' ++ [y] → lt c y = false) : Sorted lt (P1 ++ c :: P2) := by
  unfold Sorted at *
  rw [List.pairwise_append] at hs ⊢
  obtain ⟨s1, s2, s3⟩ := hs
  have hc : ∀ a ∈ P1, lt c a = false := by
    intro a ha
    have hne : P1 ≠ [] := by intro h; rw [h] at ha; cases ha
    have hd := (List.dropLast_concat_getLast hne).symm
    have hl := h1 _ _ hd
    rw [hd] at ha
    rcases List.mem_append.1 ha with h | h
    · rw [hd, List.pairwise_append] at s1
      exact o.negTrans _ _ _ hl (s1.2.2 a h _ (by simp))
    · rw [List.mem_singleton.1 h]; exact hl
  refine ⟨s1, List.pairwise_cons.2 ⟨fun y hy => o.asymm (h2 y hy), s2⟩, ?_⟩
  intro a ha b hb
  rcases List.mem_cons.1 hb with rfl | hb
  · exact hc a ha
  · exact s3 a ha b hb

/-- ... and stability. -/
theorem insert_stable {lt : α → α → Bool} (o : StrictWeakOrder lt) {P1 P2 : List α} {c : α}
    (h2 : ∀ y ∈ P2, lt c y = true) (x : α) :
    (P1 ++ c :: P2).filter (equiv lt x) = (P1 ++ P2 ++ [c]).filter (equiv lt x) := by
  simp only [List.filter_append, List.filter_cons, List.filter_nil]
  by_cases hx : equiv lt x c = true
  · have : P2.filter (equiv lt x) = [] := by
      rw [List.filter_eq_nil_iff]
      intro y hy hxy
      simp only [equiv, Bool.and_eq_true, Bool.not_eq_true'] at hx hxy
      have := o.negTrans _ _ _ hx.2 hxy.1
      rw [h2 y hy] at this; cases this
    simp [this]
  · simp [hx]

theorem insert_perm {P1 P2 : List α} {c : α} : (P1 ++ c :: P2).Perm (P1 ++ P2 ++ [c]) := by
  refine List.perm_middle.trans ?_
  exact (List.perm_append_singleton c (P1 ++ P2)).symm

theorem insertionOuter_spec {lt : α → α → Bool} (o : StrictWeakOrder lt) (A : List α) :
    ∀ (T P B old : List α), StableSortOf lt old P →
      ∃ P', insertionOuter lt A.length T.length (A.length + P.length) (A ++ (P ++ (T ++ B)))
        = .ok (A ++ (P' ++ B)) ∧ StableSortOf lt (old ++ T) P' := by
  intro T
  induction T with
  | nil => intro P B old h; exact ⟨P, by simp [insertionOuter], by simpa using h⟩
  | cons c T ih =>
    intro P B old h
    simp only [List.length_cons, insertionOuter]
    have hr : rd (A ++ (P ++ (c :: T ++ B))) (A.length + P.length) = .ok c := by
      have e : A ++ (P ++ (c :: T ++ B)) = (A ++ P) ++ c :: (T ++ B) := by simp
      rw [e]; apply rd_at; simp
    rw [hr, bind_ok]
    obtain ⟨P1, P2, h1, h2, h3, h4⟩ := insertLoop_spec lt A c P c (T ++ B)
    have e : A.length + P.length - A.length = P.length := by omega
    rw [e]
    have e2 : A ++ (P ++ (c :: T ++ B)) = A ++ (P ++ c :: (T ++ B)) := by simp
    rw [e2, h4, bind_ok]
    have hs : StableSortOf lt (old ++ [c]) (P1 ++ c :: P2) := by
      refine ⟨⟨?_, ?_⟩, ?_⟩
      · refine insert_perm.trans ?_
        rw [← h1]
        exact h.perm.append_right _
      · exact insert_sorted o (h1 ▸ h.sorted) h2 h3
      · intro x
        rw [insert_stable o h2, List.filter_append, ← h1, h.stable x, List.filter_append]
    obtain ⟨P', g1, g2⟩ := ih (P1 ++ c :: P2) B (old ++ [c]) hs
    refine ⟨P', ?_, by simpa using g2⟩
    have hlen : A.length + (P1 ++ c :: P2).length = A.length + P.length + 1 := by
      rw [h1]; simp; omega
    rw [hlen] at g1
    have e3 : A ++ (P1 ++ c :: P2 ++ (T ++ B)) = A ++ (P1 ++ (c :: P2) ++ (T ++ B)) := by simp
    exact g1

theorem StableSortOf.refl_short {lt : α → α → Bool} {l : List α} (h : l.length ≤ 1) :
    StableSortOf lt l l := by
  refine ⟨⟨List.Perm.refl _, ?_⟩, fun _ => rfl⟩
  match l, h with
  | [], _ => exact List.Pairwise.nil
  | [x], _ => exact List.pairwise_singleton _ _
  | _ :: _ :: _, h => simp at h

theorem rangeCheck_ok (A M B : List α) :
    rangeCheck (A ++ (M ++ B)).length A.length (A.length + M.length) = .ok () := by
  have h1 : ¬ (A.length > (A ++ (M ++ B)).length) := by simp
  have h2 : ¬ (A.length + M.length > (A ++ (M ++ B)).length) := by simp
  rw [rangeCheck, if_neg h1, if_neg h2]

theorem insertionSort_spec {lt : α → α → Bool} (o : StrictWeakOrder lt) (A M B : List α) :
    ∃ M', insertionSort lt (A ++ (M ++ B)) A.length (A.length + M.length) = .ok (A ++ (M' ++ B)) ∧
      StableSortOf lt M M' := by
  unfold insertionSort
  rw [rangeCheck_ok, bind_ok]
  cases M with
  | nil =>
    refine ⟨[], ?_, StableSortOf.refl_short (by simp)⟩
    have : A.length + ([] : List α).length - (A.length + 1) = 0 := by simp
    rw [this]; rfl
  | cons m M =>
    obtain ⟨P', h1, h2⟩ := insertionOuter_spec o A M [m] B [m] (StableSortOf.refl_short (by simp))
    refine ⟨P', ?_, by simpa using h2⟩
    have e : A.length + (m :: M).length - (A.length + 1) = M.length := by simp; omega
    rw [e]
    simpa using h1

/-! ## Merging -/

/-- The list the merging loop produces. -/
def mergeList (lt : α → α → Bool) : List α → List α → List α
  | [], Y => Y
  | X, [] => X
  | x :: X, y :: Y => if lt y x then y :: mergeList lt (x :: X) Y else x :: mergeList lt X (y :: Y)
termination_by X Y => X.length + Y.length

theorem mergeList_nil_right (lt : α → α → Bool) (X : List α) : mergeList lt X [] = X := by
  cases X <;> simp [mergeList]

theorem mergeLoop_spec (lt : α → α → Bool) (B : List α) :
    ∀ (n : Nat) (A1 X A2 Y acc : List α), n = X.length + Y.length →
      mergeLoop lt (A1 ++ X ++ A2 ++ Y ++ B) (A1.length + X.length)
        (A1.length + X.length + A2.length + Y.length) n A1.length
        (A1.length + X.length + A2.length) acc = .ok (acc ++ mergeList lt X Y) := by
  intro n
  induction n with
  | zero =>
    intro A1 X A2 Y acc hn
    have hX : X = [] := List.length_eq_zero_iff.1 (by omega)
    have hY : Y = [] := List.length_eq_zero_iff.1 (by omega)
    subst hX; subst hY
    simp [mergeLoop, mergeList]
  | succ n ih =>
    intro A1 X A2 Y acc hn
    cases X with
    | nil =>
      cases Y with
      | nil => simp at hn
      | cons y Y =>
        simp only [mergeLoop, List.length_nil, Nat.add_zero, ge_iff_le, Nat.le_refl, if_true]
        have hr : rd (A1 ++ [] ++ A2 ++ y :: Y ++ B) (A1.length + A2.length) = .ok y := by
          have e : A1 ++ [] ++ A2 ++ y :: Y ++ B = (A1 ++ A2) ++ y :: (Y ++ B) := by simp
          rw [e]; apply rd_at; simp
        rw [hr, bind_ok]
        have := ih A1 [] (A2 ++ [y]) Y (acc ++ [y]) (by simp at hn ⊢; omega)
        simp only [List.append_nil, List.length_nil, Nat.add_zero, List.length_append,
          List.length_cons, Nat.zero_add, List.append_assoc, List.cons_append, List.nil_append,
          mergeList] at this ⊢
        rw [← this]; congr 1 <;> omega
    | cons x X =>
      have hlt : ¬ (A1.length ≥ A1.length + (x :: X).length) := by simp
      cases Y with
      | nil =>
        simp only [mergeLoop, if_neg hlt, List.length_nil, Nat.add_zero, ge_iff_le, Nat.le_refl,
          if_true]
        have hr : rd (A1 ++ x :: X ++ A2 ++ [] ++ B) A1.length = .ok x := by
          have e : A1 ++ x :: X ++ A2 ++ [] ++ B = A1 ++ x :: (X ++ A2 ++ B) := by simp
          rw [e]; apply rd_at; rfl
        rw [hr, bind_ok]
        have := ih (A1 ++ [x]) X A2 [] (acc ++ [x]) (by simp at hn ⊢; omega)
        simp only [List.append_nil, List.length_nil, Nat.add_zero, List.length_append,
          List.length_cons, Nat.zero_add, List.append_assoc, List.cons_append, List.nil_append,
          mergeList_nil_right] at this ⊢
        rw [← this]; congr 1 <;> omega
      | cons y Y =>
        have hlt2 : ¬ (A1.length + (x :: X).length + A2.length ≥
          A1.length + (x :: X).length + A2.length + (y :: Y).length) := by simp
        simp only [mergeLoop, if_neg hlt, if_neg hlt2]
        have hr1 : rd (A1 ++ x :: X ++ A2 ++ y :: Y ++ B)
            (A1.length + (x :: X).length + A2.length) = .ok y := by
          have e : A1 ++ x :: X ++ A2 ++ y :: Y ++ B = (A1 ++ x :: X ++ A2) ++ y :: (Y ++ B) := by simp
          rw [e]; apply rd_at; simp; omega
        have hr2 : rd (A1 ++ x :: X ++ A2 ++ y :: Y ++ B) A1.length = .ok x := by
          have e : A1 ++ x :: X ++ A2 ++ y :: Y ++ B = A1 ++ x :: (X ++ A2 ++ y :: Y ++ B) := by simp
          rw [e]; apply rd_at; rfl
        rw [hr1, bind_ok, hr2, bind_ok]
        by_cases h : lt y x = true
        · rw [if_pos h]
          have := ih A1 (x :: X) (A2 ++ [y]) Y (acc ++ [y]) (by simp at hn ⊢; omega)
          simp only [List.length_append,
            List.length_cons, Nat.zero_add, List.append_assoc, List.cons_append, List.nil_append,
            mergeList, if_pos h, List.length_nil] at this ⊢
          rw [← this]; congr 1 <;> omega
        · rw [if_neg h]
          have := ih (A1 ++ [x]) X A2 (y :: Y) (acc ++ [x]) (by simp at hn ⊢; omega)
          simp only [List.length_append,
            List.length_cons, Nat.zero_add, List.append_assoc, List.cons_append, List.nil_append,
            mergeList, if_neg h, List.length_nil] at this ⊢
          rw [← this]; congr 1 <;> omega

theorem copyBack_spec : ∀ (W A M B : List α), W.length = M.length →
    copyBack W A.length (A ++ (M ++ B)) = .ok (A ++ (W ++ B)) := by
  intro W
  induction W with
  | nil =>
    intro A M B h
    have : M = [] := List.length_eq_zero_iff.1 h.symm
    subst this; rfl
  | cons w W ih =>
    intro A M B h
    cases M with
    | nil => simp at h
    | cons m M =>
      simp only [copyBack]
      rw [show A ++ (m :: M ++ B) = A ++ m :: (M ++ B) by simp, wr_at A (M ++ B) m w rfl, bind_ok]
      have := ih (A ++ [w]) M B (by simpa using h)
      simp only [List.length_append, List.length_cons, List.length_nil, Nat.zero_add,
        List.append_assoc, List.cons_append, List.nil_append] at this
      rw [this]; simp

theorem mergeList_perm (lt : α → α → Bool) (X Y : List α) : (mergeList lt X Y).Perm (X ++ Y) := by
  fun_induction mergeList lt X Y with
  | case1 Y => simp
  | case2 X => simp
  | case3 x X y Y h ih =>
    exact (ih.cons y).trans (List.perm_middle (l₁ := x :: X)).symm
  | case4 x X y Y h ih => exact ih.cons x

theorem mergeList_mem {lt : α → α → Bool} {X Y : List α} {z : α} (h : z ∈ mergeList lt X Y) :
    z ∈ X ∨ z ∈ Y := List.mem_append.1 ((mergeList_perm lt X Y).mem_iff.1 h)

theorem mergeList_sorted {lt : α → α → Bool} (o : StrictWeakOrder lt) (X Y : List α)
    (hX : Sorted lt X) (hY : Sorted lt Y) : Sorted lt (mergeList lt X Y) := by
  fun_induction mergeList lt X Y with
  | case1 Y => exact hY
  | case2 X => exact hX
  | case3 x X y Y h ih =>
    unfold Sorted at hX hY ih ⊢
    have hY' := List.pairwise_cons.1 hY
    have hX' := List.pairwise_cons.1 hX
    refine List.pairwise_cons.2 ⟨?_, ih hX hY'.2⟩
    intro z hz
    rcases mergeList_mem hz with hz | hz
    · rcases List.mem_cons.1 hz with rfl | hz
      · exact o.asymm h
      · exact o.negTrans _ _ _ (hX'.1 z hz) (o.asymm h)
    · exact hY'.1 z hz
  | case4 x X y Y h ih =>
    unfold Sorted at hX hY ih ⊢
    have hY' := List.pairwise_cons.1 hY
    have hX' := List.pairwise_cons.1 hX
    have h : lt y x = false := by simpa using h
    refine List.pairwise_cons.2 ⟨?_, ih hX'.2 hY⟩
    intro z hz
    rcases mergeList_mem hz with hz | hz
    · exact hX'.1 z hz
    · rcases List.mem_cons.1 hz with rfl | hz
      · exact h
      · exact o.negTrans _ _ _ (hY'.1 z hz) h

theorem mergeList_stable {lt : α → α → Bool} (o : StrictWeakOrder lt) (X Y : List α)
    (hX : Sorted lt X) (z : α) :
    (mergeList lt X Y).filter (equiv lt z) = (X ++ Y).filter (equiv lt z) := by
  fun_induction mergeList lt X Y with
  | case1 Y => simp
  | case2 X => simp
  | case3 x X y Y h ih =>
    rw [List.filter_cons, ih hX]
    by_cases hz : equiv lt z y = true
    · have hnil : (x :: X).filter (equiv lt z) = [] := by
        rw [List.filter_eq_nil_iff]
        intro w hw hzw
        simp only [equiv, Bool.and_eq_true, Bool.not_eq_true'] at hz hzw
        have hwy : lt y w = false := o.negTrans _ _ _ hz.2 hzw.1
        have hxw : lt w x = false := by
          rcases List.mem_cons.1 hw with rfl | hw
          · exact o.irrefl _
          · exact (List.pairwise_cons.1 hX).1 w hw
        have := o.negTrans _ _ _ hwy hxw
        rw [h] at this; cases this
      rw [if_pos hz, List.filter_append, List.filter_append, hnil, List.filter_cons, if_pos hz]
      simp
    · rw [if_neg hz, List.filter_append, List.filter_append, List.filter_cons (x := y), if_neg hz]
  | case4 x X y Y h ih =>
    rw [List.filter_cons, ih (List.pairwise_cons.1 hX).2, List.cons_append, List.filter_cons]

theorem merge_spec {lt : α → α → Bool} (o : StrictWeakOrder lt) (A X Y B : List α)
    (hX : Sorted lt X) (hY : Sorted lt Y) :
    ∃ W, merge lt (A ++ (X ++ Y ++ B)) A.length (A.length + X.length)
        (A.length + X.length + Y.length) = .ok (A ++ (W ++ B)) ∧
      StableSortOf lt (X ++ Y) W := by
  refine ⟨mergeList lt X Y, ?_, ⟨⟨mergeList_perm lt X Y, mergeList_sorted o X Y hX hY⟩,
    mergeList_stable o X Y hX⟩⟩
  have := mergeLoop_spec lt B (X.length + Y.length) A X [] Y [] rfl
  simp only [List.append_nil, List.length_nil, Nat.add_zero, List.nil_append] at this
  unfold merge
  have e : A.length + X.length + Y.length - A.length = X.length + Y.length := by omega
  rw [e, show A ++ (X ++ Y ++ B) = A ++ X ++ Y ++ B by simp, this, bind_ok]
  rw [show A ++ X ++ Y ++ B = A ++ ((X ++ Y) ++ B) by simp]
  exact copyBack_spec _ _ _ _ (mergeList_perm lt X Y).length_eq

theorem StableSortOf.trans_append {lt : α → α → Bool} {X Y X' Y' W : List α}
    (hX : StableSortOf lt X X') (hY : StableSortOf lt Y Y') (h : StableSortOf lt (X' ++ Y') W) :
    StableSortOf lt (X ++ Y) W :=
  ⟨⟨h.perm.trans (hX.perm.append hY.perm), h.sorted⟩, fun x => by
    rw [h.stable, List.filter_append, List.filter_append, hX.stable, hY.stable]⟩

theorem mergeSort_spec {lt : α → α → Bool} (o : StrictWeakOrder lt) :
    ∀ (fuel : Nat) (A M B : List α), M.length < fuel →
      ∃ M', mergeSort lt fuel (A ++ (M ++ B)) A.length (A.length + M.length) = .ok (A ++ (M' ++ B)) ∧
        StableSortOf lt M M' := by
  intro fuel
  induction fuel with
  | zero => intro A M B h; omega
  | succ fuel ih =>
    intro A M B hf
    simp only [mergeSort]
    rw [rangeCheck_ok, bind_ok]
    have e : A.length + M.length - A.length = M.length := by omega
    rw [e]
    by_cases hs : M.length < smallSortSize
    · rw [if_pos hs]; exact insertionSort_spec o A M B
    · rw [if_neg hs]
      have hs' : 10 ≤ M.length := by unfold smallSortSize at hs; omega
      rw [if_pos (by omega)]
      obtain ⟨X, Y, hXY, hXl⟩ : ∃ X Y, M = X ++ Y ∧ X.length = M.length / 2 :=
        ⟨M.take (M.length / 2), M.drop (M.length / 2), (List.take_append_drop _ _).symm, by
          rw [List.length_take]; omega⟩
      have hYl : Y.length = M.length - M.length / 2 := by
        have : M.length = X.length + Y.length := by rw [hXY]; simp
        omega
      rw [← hXl]
      obtain ⟨X', g1, g2⟩ := ih A X (Y ++ B) (by omega)
      have e1 : A ++ (M ++ B) = A ++ (X ++ (Y ++ B)) := by rw [hXY]; simp
      rw [e1, g1, bind_ok]
      have hX'l : X'.length = X.length := g2.perm.length_eq
      obtain ⟨Y', f1, f2⟩ := ih (A ++ X') Y B (by omega)
      have hY'l : Y'.length = Y.length := f2.perm.length_eq
      have e2 : A ++ (X' ++ (Y ++ B)) = (A ++ X') ++ (Y ++ B) := by simp
      have e3 : A.length + X.length = (A ++ X').length := by simp [hX'l]
      have e4 : A.length + M.length = (A ++ X').length + Y.length := by
        rw [hXY]; simp [hX'l]; omega
      rw [e2, e3, e4, f1, bind_ok]
      obtain ⟨W, w1, w2⟩ := merge_spec o A X' Y' B g2.sorted f2.sorted
      refine ⟨W, ?_, hXY ▸ g2.trans_append f2 w2⟩
      rw [← w1]
      congr 1
      · simp
      · simp
      · simp [hY'l]

/-! ## Partitioning -/

theorem scanUp_spec (lt : α → α → Bool) (p : α) (L : List α) :
    ∀ (X Z : List α) (z : α), (∀ x ∈ X, lt x p = true) → lt z p = false → ∀ fuel, X.length < fuel →
      scanUp lt (L ++ (X ++ z :: Z)) p fuel L.length = .ok (L.length + X.length) := by
  intro X
  induction X generalizing L with
  | nil =>
    intro Z z _ hz fuel hf
    cases fuel with
    | zero => simp at hf
    | succ fuel =>
      simp only [scanUp, List.nil_append]
      rw [rd_at L Z z rfl, bind_ok, hz]; rfl
  | cons x X ih =>
    intro Z z hX hz fuel hf
    cases fuel with
    | zero => simp at hf
    | succ fuel =>
      simp only [scanUp]
      rw [show L ++ (x :: X ++ z :: Z) = L ++ x :: (X ++ z :: Z) by simp, rd_at _ _ _ rfl, bind_ok,
        hX x (by simp), if_pos rfl]
      have := ih (L ++ [x]) Z z (fun y hy => hX y (by simp [hy])) hz fuel (by simpa using hf)
      simp only [List.append_assoc, List.cons_append, List.nil_append, List.length_append,
        List.length_cons, List.length_nil] at this ⊢
      rw [this]; congr 1; omega

theorem scanDown_eq (lt : α → α → Bool) (v : List α) (p : α) (i : Nat) (x : α)
    (h : v[i]? = some x) : scanDown lt v p i =
      if lt p x then (match i with | 0 => .oob | j + 1 => scanDown lt v p j) else .ok i := by
  cases i with
  | zero => simp only [scanDown]; rw [rd_get h, bind_ok]
  | succ j => simp only [scanDown]; rw [rd_get h, bind_ok]

theorem scanDown_spec (lt : α → α → Bool) (p : α) :
    ∀ (X Z : List α) (L : List α) (z : α), (∀ x ∈ X, lt p x = true) → lt p z = false →
      scanDown lt (L ++ z :: (X ++ Z)) p (L.length + X.length) = .ok L.length := by
  intro X
  induction hn : X.length generalizing X with
  | zero =>
    intro Z L z _ hz
    have : X = [] := List.length_eq_zero_iff.1 hn
    subst this
    rw [scanDown_eq lt _ p _ z (by simp)]
    simp [hz]
  | succ n ih =>
    intro Z L z hX hz
    have hne : X ≠ [] := by intro h; rw [h] at hn; simp at hn
    obtain ⟨X', y, rfl⟩ : ∃ X' y, X = X' ++ [y] :=
      ⟨X.dropLast, X.getLast hne, (List.dropLast_concat_getLast hne).symm⟩
    have hn' : X'.length = n := by simpa using hn
    have hget : (L ++ z :: (X' ++ [y] ++ Z))[L.length + (n + 1)]? = some y := by
      rw [show L ++ z :: (X' ++ [y] ++ Z) = (L ++ z :: X') ++ y :: Z by simp]
      rw [List.getElem?_append_right (by simp; omega)]
      simp [← hn']
    rw [scanDown_eq lt _ p _ y hget, hX y (by simp), if_pos rfl]
    have := ih X' hn' ([y] ++ Z) L z (fun x hx => hX x (by simp [hx])) hz
    rw [← this]
    simp

/-- Splitting a list at the first element that is not below the pivot. -/
theorem split_first (f : α → Bool) : ∀ X : List α, ∃ X1 X2, X = X1 ++ X2 ∧ (∀ x ∈ X1, f x = true) ∧
    ∀ z Z, X2 = z :: Z → f z = false := by
  intro X
  induction X with
  | nil => exact ⟨[], [], rfl, by simp, by simp⟩
  | cons x X ih =>
    by_cases h : f x = true
    · obtain ⟨X1, X2, h1, h2, h3⟩ := ih
      exact ⟨x :: X1, X2, by simp [h1], by
        intro y hy; rcases List.mem_cons.1 hy with rfl | hy
        · exact h
        · exact h2 y hy, h3⟩
    · exact ⟨[], x :: X, rfl, by simp, by
        intro z Z hz; cases hz; simpa using h⟩

/-- Splitting a list at the last element that is not above the pivot. -/
theorem split_last (f : α → Bool) (X : List α) : ∃ X3 X4, X = X3 ++ X4 ∧ (∀ x ∈ X4, f x = true) ∧
    ∀ Z z, X3 = Z ++ [z] → f z = false := by
  obtain ⟨Y1, Y2, h1, h2, h3⟩ := split_first f X.reverse
  refine ⟨Y2.reverse, Y1.reverse, ?_, ?_, ?_⟩
  · rw [← List.reverse_append, ← h1, List.reverse_reverse]
  · intro x hx; exact h2 x (List.mem_reverse.1 hx)
  · intro Z z hz
    have : Y2 = z :: Z.reverse := by
      rw [← List.reverse_reverse Y2, hz]; simp
    exact h3 _ _ this

theorem swap_spec (L : List α) (a : α) (X : List α) (b : α) (R : List α) {i j : Nat}
    (hi : i = L.length) (hj : j = L.length + 1 + X.length) :
    swap (L ++ a :: (X ++ b :: R)) i j = .ok (L ++ b :: (X ++ a :: R)) := by
  unfold swap
  have e : L ++ a :: (X ++ b :: R) = (L ++ a :: X) ++ b :: R := by simp
  have hr2 : rd (L ++ a :: (X ++ b :: R)) j = .ok b := by
    rw [e]; apply rd_at; simp; omega
  rw [rd_at _ _ _ hi, bind_ok, hr2, bind_ok, wr_at _ _ _ _ hi, bind_ok]
  have e2 : L ++ b :: (X ++ b :: R) = (L ++ b :: X) ++ b :: R := by simp
  rw [e2, wr_at _ _ _ _ (by simp; omega)]
  simp

/-- What `partition!` guarantees of the part below and above its result. -/
structure Parted (lt : α → α → Bool) (p : α) (M L R : List α) : Prop where
  perm : (L ++ R).Perm M
  below : ∀ x ∈ L, lt p x = false
  above : ∀ x ∈ R, lt x p = false

theorem partitionLoop_spec {lt : α → α → Bool} (o : StrictWeakOrder lt) (p : α) (A B : List α) :
    ∀ (fuel : Nat) (L X R : List α), X.length < fuel →
      (∀ x ∈ L, lt p x = false) → (∀ x ∈ R, lt x p = false) →
      ((L = [] ∧ R = [] ∧ p ∈ X ∧
        (∀ x X', X = x :: X' → (∀ y ∈ X', lt p y = true) → False)) ∨ (L ≠ [] ∧ R ≠ [])) →
      ∃ L' R', partitionLoop lt p fuel (A ++ (L ++ X ++ R ++ B)) (A.length + L.length)
          (A.length + L.length + X.length - 1) = .ok (A ++ (L' ++ R' ++ B), A.length + L'.length) ∧
        Parted lt p (L ++ X ++ R) L' R' ∧ L' ≠ [] ∧ R' ≠ [] := by
  intro fuel
  induction fuel with
  | zero => intro L X R h; omega
  | succ fuel ih =>
    intro L X R hf hL hR hsent
    obtain ⟨X1, X2, hX12, hX1, hX2⟩ := split_first (fun x => lt x p) X
    obtain ⟨X3, X4, hX34, hX4, hX3⟩ := split_last (fun x => lt p x) X
    have hlen12 : X.length = X1.length + X2.length := by rw [hX12]; simp
    have hlen34 : X.length = X3.length + X4.length := by rw [hX34]; simp
    -- the upward scan stops
    have hup : scanUp lt (A ++ (L ++ X ++ R ++ B)) p ((A ++ (L ++ X ++ R ++ B)).length + 1)
        (A.length + L.length) = .ok (A.length + L.length + X1.length) := by
      obtain ⟨z, Z, hz, hZ⟩ : ∃ z Z, X2 ++ R ++ B = z :: Z ∧ lt z p = false := by
        cases hX2' : X2 with
        | cons z Z => exact ⟨z, Z ++ R ++ B, by simp, hX2 z Z hX2'⟩
        | nil =>
          rcases hsent with ⟨_, _, hp, _⟩ | ⟨_, hR'⟩
          · rw [hX12, hX2', List.append_nil] at hp
            have := hX1 p hp
            simp only [o.irrefl] at this; cases this
          · cases R with
            | nil => exact absurd rfl hR'
            | cons r R => exact ⟨r, R ++ B, by simp, hR r (by simp)⟩
      have e : A ++ (L ++ X ++ R ++ B) = (A ++ L) ++ (X1 ++ z :: Z) := by
        rw [← hz, hX12]; simp
      have hlen : A.length + L.length = (A ++ L).length := by simp
      rw [e, hlen]
      refine scanUp_spec lt p (A ++ L) X1 Z z hX1 hZ _ ?_
      simp; omega
    -- the downward scan stops
    have hdown : scanDown lt (A ++ (L ++ X ++ R ++ B)) p (A.length + L.length + X.length - 1)
        = .ok (A.length + L.length + X3.length - 1) := by
      obtain ⟨Z, z, hz, hZ⟩ : ∃ Z z, L ++ X3 = Z ++ [z] ∧ lt p z = false := by
        by_cases hne : X3 = []
        · rcases hsent with ⟨hL0, _, hp, _⟩ | ⟨hL', _⟩
          · rw [hX34, hne, List.nil_append] at hp
            have := hX4 p hp
            simp only [o.irrefl] at this; cases this
          · refine ⟨L.dropLast, L.getLast hL', ?_, hL _ (List.getLast_mem hL')⟩
            rw [hne, List.append_nil, List.dropLast_concat_getLast]
        · have hd := (List.dropLast_concat_getLast hne).symm
          refine ⟨L ++ X3.dropLast, X3.getLast hne, ?_, hX3 _ _ hd⟩
          rw [List.append_assoc, ← hd]
      have hzl : L.length + X3.length = Z.length + 1 := by
        have := congrArg List.length hz
        simpa using this
      have e : A ++ (L ++ X ++ R ++ B) = (A ++ Z) ++ z :: (X4 ++ (R ++ B)) := by
        rw [hX34]
        have : A ++ (L ++ (X3 ++ X4) ++ R ++ B) = A ++ ((L ++ X3) ++ (X4 ++ (R ++ B))) := by simp
        rw [this, hz]; simp
      have := scanDown_spec lt p X4 (R ++ B) (A ++ Z) z hX4 hZ
      have e1 : A.length + L.length + X.length - 1 = (A ++ Z).length + X4.length := by
        simp; omega
      have e2 : A.length + L.length + X3.length - 1 = (A ++ Z).length := by simp; omega
      rw [e, e1, e2, this]
    simp only [partitionLoop]
    rw [hup, bind_ok, hdown, bind_ok]
    by_cases hc : A.length + L.length + X1.length < A.length + L.length + X3.length - 1
    · rw [if_pos hc]
      -- X = X1 ++ a :: X' ++ b :: X4
      obtain ⟨a, X', b, hX⟩ : ∃ a X' b, X = X1 ++ a :: (X' ++ b :: X4) := by
        have h13 : X1.length + 2 ≤ X3.length := by omega
        have hpre : X1 = X3.take X1.length := by
          have h1 : X1 = X.take X1.length := by rw [hX12]; simp
          rw [hX34, List.take_append_of_le_length (by omega)] at h1
          exact h1
        have hne : X3 ≠ [] := by intro h; rw [h] at h13; simp at h13
        have hdl : X3 = X3.dropLast ++ [X3.getLast hne] := (List.dropLast_concat_getLast hne).symm
        have hd3 : X3.dropLast = X1 ++ X3.dropLast.drop X1.length := by
          conv => lhs; rw [← List.take_append_drop X1.length X3.dropLast]
          congr 1
          have hpre' := hpre
          rw [hdl, List.take_append_of_le_length (by simp; omega)] at hpre'
          exact hpre'.symm
        cases hdr : X3.dropLast.drop X1.length with
        | nil =>
          have := congrArg List.length hdr
          simp at this; omega
        | cons a X' =>
          refine ⟨a, X', X3.getLast hne, ?_⟩
          rw [hdr] at hd3
          rw [hX34]
          conv => lhs; rw [hdl, hd3]
          simp
      have ha : lt a p = false := by
        apply hX2 a (X' ++ b :: X4)
        have : X1 ++ X2 = X1 ++ a :: (X' ++ b :: X4) := by rw [← hX12]; exact hX
        exact List.append_cancel_left this
      have hb : lt p b = false := by
        apply hX3 (X1 ++ a :: X') b
        have : X3 ++ X4 = (X1 ++ a :: X' ++ [b]) ++ X4 := by rw [← hX34, hX]; simp
        exact List.append_cancel_right this
      have hX3l : X3.length = X1.length + X'.length + 2 := by
        have : X.length = X1.length + (X'.length + (X4.length + 1) + 1) := by rw [hX]; simp
        omega
      have hsw : swap (A ++ (L ++ X ++ R ++ B)) (A.length + L.length + X1.length)
          (A.length + L.length + X3.length - 1) =
          .ok (A ++ ((L ++ X1 ++ [b]) ++ X' ++ (a :: X4 ++ R) ++ B)) := by
        have := swap_spec (A ++ L ++ X1) a X' b (X4 ++ R ++ B)
          (i := A.length + L.length + X1.length) (j := A.length + L.length + X3.length - 1)
          (by simp; omega) (by simp; omega)
        rw [hX]
        simp only [List.append_assoc, List.cons_append, List.nil_append] at this ⊢
        rw [this]
      rw [hsw, bind_ok]
      obtain ⟨L', R', g1, g2, g3, g4⟩ := ih (L ++ X1 ++ [b]) X' (a :: X4 ++ R)
        (by
          have : X.length = X1.length + (X'.length + (X4.length + 1) + 1) := by rw [hX]; simp
          omega)
        (by
          intro x hx
          simp only [List.mem_append, List.mem_singleton] at hx
          rcases hx with (hx | hx) | rfl
          · exact hL x hx
          · exact o.asymm (hX1 x hx)
          · exact hb)
        (by
          intro x hx
          simp only [List.cons_append, List.mem_cons, List.mem_append] at hx
          rcases hx with rfl | hx | hx
          · exact ha
          · exact o.asymm (hX4 x hx)
          · exact hR x hx)
        (Or.inr ⟨by simp, by simp⟩)
      refine ⟨L', R', ?_, ⟨?_, g2.below, g2.above⟩, g3, g4⟩
      · rw [← g1]
        congr 1
        · simp; omega
        · simp; omega
      · refine g2.perm.trans ?_
        rw [hX]
        have p1 : (L ++ X1 ++ [b] ++ X' ++ (a :: X4 ++ R)).Perm
            (L ++ X1 ++ ([b] ++ X' ++ [a] ++ (X4 ++ R))) := by simp
        have p2 : (L ++ (X1 ++ a :: (X' ++ b :: X4)) ++ R) =
            (L ++ X1 ++ ([a] ++ X' ++ [b] ++ (X4 ++ R))) := by simp
        rw [p2]
        refine p1.trans (List.Perm.append_left _ (List.Perm.append_right _ ?_))
        refine (List.perm_append_singleton a _).trans ?_
        simp only [List.cons_append, List.nil_append]
        exact (List.Perm.cons a (List.perm_append_singleton b X').symm)
    · rw [if_neg hc]
      have h13 : X3.length ≤ X1.length + 1 := by omega
      refine ⟨L ++ X1, X2 ++ R, ?_, ⟨?_, ?_, ?_⟩, ?_, ?_⟩
      · rw [hX12]; congr 2 <;> simp; omega
      · rw [hX12]; simp
      · intro x hx
        rcases List.mem_append.1 hx with hx | hx
        · exact hL x hx
        · exact o.asymm (hX1 x hx)
      · intro x hx
        rcases List.mem_append.1 hx with hx | hx
        · cases hX2' : X2 with
          | nil => rw [hX2'] at hx; cases hx
          | cons z Z =>
            rw [hX2'] at hx
            rcases List.mem_cons.1 hx with rfl | hx
            · exact hX2 _ _ hX2'
            · -- Z is a suffix of X4
              have hZ : Z = (X3 ++ X4).drop (X1.length + 1) := by
                rw [← hX34, hX12, hX2']; simp
              rw [List.drop_append] at hZ
              rw [List.drop_of_length_le h13, List.nil_append] at hZ
              rw [hZ] at hx
              exact o.asymm (hX4 x (List.mem_of_mem_drop hx))
        · exact hR x hx
      · intro h0
        obtain ⟨h01, h02⟩ := List.append_eq_nil_iff.1 h0
        rcases hsent with ⟨_, _, hp, hex⟩ | ⟨hL', _⟩
        · rw [h02] at h13
          simp only [List.length_nil, Nat.zero_add] at h13
          cases hX3' : X3 with
          | nil =>
            rw [hX34, hX3', List.nil_append] at hp
            have := hX4 p hp
            simp only [o.irrefl] at this; cases this
          | cons w W =>
            rw [hX3'] at h13
            have : W = [] := List.length_eq_zero_iff.1 (by simpa using h13)
            rw [hX3', this] at hX34
            exact hex w X4 (by simpa using hX34) hX4
        · exact hL' h01
      · intro h0
        obtain ⟨h01, h02⟩ := List.append_eq_nil_iff.1 h0
        rcases hsent with ⟨_, _, hp, _⟩ | ⟨_, hR'⟩
        · rw [hX12, h01, List.append_nil] at hp
          have := hX1 p hp
          simp only [o.irrefl] at this; cases this
        · exact hR' h02

theorem partition_spec {lt : α → α → Bool} (o : StrictWeakOrder lt) (A M B : List α)
    (hM : 3 ≤ M.length) :
    ∃ p L R, partition lt (A ++ (M ++ B)) A.length (A.length + M.length) =
        .ok (A ++ (L ++ R ++ B), A.length + L.length) ∧
      Parted lt p M L R ∧ L ≠ [] ∧ R ≠ [] := by
  -- elements by index
  have hget : ∀ i, (h : i < M.length) → (A ++ (M ++ B))[A.length + i]? = some M[i] := by
    intro i h
    rw [List.getElem?_append_right (by omega)]
    rw [show A.length + i - A.length = i by omega, List.getElem?_append_left h,
      List.getElem?_eq_getElem h]
  have hmid : (A.length + (A.length + M.length - 1)) / 2 = A.length + (M.length - 1) / 2 := by omega
  -- the median is an index of M, and if it is the first then the last but one is not above it
  have hmed : ∃ i, ∃ h : i < M.length,
      medianOfThree lt (A ++ (M ++ B)) A.length (A.length + M.length - 1) = .ok (A.length + i) ∧
      (i = 0 → lt M[0] M[M.length - 2] = false) := by
    have r1 : rd (A ++ (M ++ B)) A.length = .ok (M[0]'(by omega)) := rd_get (hget 0 (by omega))
    have r2 : rd (A ++ (M ++ B)) (A.length + M.length - 1 - 1) = .ok (M[M.length - 2]'(by omega)) := by
      apply rd_get
      rw [show A.length + M.length - 1 - 1 = A.length + (M.length - 2) by omega]
      exact hget _ (by omega)
    have r3 : rd (A ++ (M ++ B)) (A.length + (M.length - 1) / 2) = .ok (M[(M.length - 1) / 2]'(by omega)) :=
      rd_get (hget _ (by omega))
    unfold medianOfThree
    simp only [hmid]
    rw [r1, bind_ok, r2, bind_ok, r3, bind_ok]
    by_cases c1 : lt (M[0]'(by omega)) (M[M.length - 2]'(by omega)) = true
    · rw [if_pos c1]
      by_cases c2 : lt (M[(M.length - 1) / 2]'(by omega)) (M[M.length - 2]'(by omega)) = true
      · rw [if_pos c2]
        exact ⟨(M.length - 1) / 2, by omega, rfl, by intro h; omega⟩
      · rw [if_neg c2]
        exact ⟨M.length - 1, by omega, by congr 1; omega, by intro h; omega⟩
    · rw [if_neg c1]
      by_cases c2 : lt (M[(M.length - 1) / 2]'(by omega)) (M[0]'(by omega)) = true
      · rw [if_pos c2]
        exact ⟨(M.length - 1) / 2, by omega, rfl, by intro h; omega⟩
      · rw [if_neg c2]
        exact ⟨0, by omega, by simp, fun _ => by simpa using c1⟩
  obtain ⟨i, hi, hm1, hm2⟩ := hmed
  unfold partition
  rw [hm1, bind_ok, rd_get (hget i hi), bind_ok]
  obtain ⟨L, R, g1, g2, g3, g4⟩ := partitionLoop_spec o M[i] A B ((A ++ (M ++ B)).length + 1) [] M []
    (by simp; omega) (by simp) (by simp)
    (Or.inl ⟨rfl, rfl, List.getElem_mem hi, by
      intro x X' hX hall
      subst hX
      cases i with
      | zero =>
        have := hm2 rfl
        have hx : lt x ((x :: X')[(x :: X').length - 2]'(by omega)) = true := by
          have hidx : (x :: X').length - 2 = ((x :: X').length - 3) + 1 := by omega
          have : (x :: X')[(x :: X').length - 2]'(by omega) = X'[(x :: X').length - 3]'(by
              simp at hM ⊢; omega) := by
            simp only [hidx, List.getElem_cons_succ]
          rw [this]
          exact hall _ (List.getElem_mem _)
        simp only [List.getElem_cons_zero] at this
        rw [hx] at this; cases this
      | succ k =>
        have hmem : (x :: X')[k + 1] ∈ X' := by
          rw [List.getElem_cons_succ]; exact List.getElem_mem _
        have := hall _ hmem
        rw [o.irrefl] at this; cases this⟩)
  refine ⟨M[i], L, R, ?_, by simpa using g2, g3, g4⟩
  simpa using g1

theorem sorted_append_of_pivot {lt : α → α → Bool} (o : StrictWeakOrder lt) {p : α} {L R : List α}
    (hL : Sorted lt L) (hR : Sorted lt R) (h1 : ∀ x ∈ L, lt p x = false)
    (h2 : ∀ x ∈ R, lt x p = false) : Sorted lt (L ++ R) := by
  unfold Sorted at *
  rw [List.pairwise_append]
  exact ⟨hL, hR, fun a ha b hb => o.negTrans _ _ _ (h2 b hb) (h1 a ha)⟩

theorem quickSort_spec {lt : α → α → Bool} (o : StrictWeakOrder lt) :
    ∀ (fuel : Nat) (A M B : List α), M.length < fuel →
      ∃ M', quickSort lt fuel (A ++ (M ++ B)) A.length (A.length + M.length) = .ok (A ++ (M' ++ B)) ∧
        SortOf lt M M' := by
  intro fuel
  induction fuel with
  | zero => intro A M B h; omega
  | succ fuel ih =>
    intro A M B hf
    simp only [quickSort]
    rw [rangeCheck_ok, bind_ok]
    have e : A.length + M.length - A.length = M.length := by omega
    rw [e]
    by_cases hs : M.length < smallSortSize
    · rw [if_pos hs]
      obtain ⟨M', h1, h2⟩ := insertionSort_spec o A M B
      exact ⟨M', h1, h2.toSortOf⟩
    · rw [if_neg hs]
      have hs' : 10 ≤ M.length := by unfold smallSortSize at hs; omega
      rw [if_pos (by omega)]
      obtain ⟨p, L, R, h1, h2, h3, h4⟩ := partition_spec o A M B (by omega)
      rw [h1, bind_ok]
      have hlen : L.length + R.length = M.length := by
        have := h2.perm.length_eq
        simpa using this
      have hL0 : 0 < L.length := List.length_pos_iff.2 h3
      have hR0 : 0 < R.length := List.length_pos_iff.2 h4
      obtain ⟨L', g1, g2⟩ := ih A L (R ++ B) (by omega)
      have e1 : A ++ (L ++ R ++ B) = A ++ (L ++ (R ++ B)) := by simp
      simp only []
      rw [e1, g1, bind_ok]
      have hL' : L'.length = L.length := g2.perm.length_eq
      obtain ⟨R', f1, f2⟩ := ih (A ++ L') R B (by omega)
      have e2 : A ++ (L' ++ (R ++ B)) = (A ++ L') ++ (R ++ B) := by simp
      have e3 : A.length + L.length = (A ++ L').length := by simp [hL']
      have e4 : A.length + M.length = (A ++ L').length + R.length := by simp [hL']; omega
      rw [e2, e3, e4, f1]
      refine ⟨L' ++ R', by simp, ⟨(g2.perm.append f2.perm).trans h2.perm, ?_⟩⟩
      refine sorted_append_of_pivot o g2.sorted f2.sorted (p := p) ?_ ?_
      · intro x hx; exact h2.below x (g2.perm.mem_iff.1 hx)
      · intro x hx; exact h2.above x (f2.perm.mem_iff.1 hx)

end Verif.Sort
