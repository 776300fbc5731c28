import Verif.Sort.Lemmas
/-!
# C01, C02, C03: sorting
-/
namespace Verif.Sort

variable {α : Type}

/-- **C01.**  `sort!(vector, test:, stable: #t)` finishes, and sorts stably. -/
theorem stable_sort_correct {lt : α → α → Bool} (o : StrictWeakOrder lt) (v : List α) :
    ∃ w, sort lt true v = .ok w ∧ StableSortOf lt v w := by
  obtain ⟨w, h1, h2⟩ := mergeSort_spec o (v.length + 1) [] v [] (by omega)
  exact ⟨w, by simpa [sort] using h1, h2⟩

theorem mid_range (A M B : List α) :
    ((A ++ (M ++ B)).take (A.length + M.length)).drop A.length = M := by
  rw [← List.append_assoc, ← List.length_append, List.take_left', List.drop_left']
  · rfl
  · rfl

/-- **C01**, for a subrange `start ≤ end ≤ size` (the form the recursion uses): the elements outside
the range stay as they are and the range is sorted stably. -/
theorem stable_sort_range {lt : α → α → Bool} (o : StrictWeakOrder lt) (v : List α)
    (start stop : Nat) (h1 : start ≤ stop) (h2 : stop ≤ v.length) :
    ∃ w, mergeSort lt (v.length + 1) v start stop = .ok w ∧ w.length = v.length ∧
      w.take start = v.take start ∧ w.drop stop = v.drop stop ∧
      StableSortOf lt ((v.take stop).drop start) ((w.take stop).drop start) := by
  have hv : v = v.take start ++ ((v.take stop).drop start ++ v.drop stop) := by
    conv => lhs; rw [← List.take_append_drop stop v, ← List.take_append_drop start (v.take stop)]
    rw [List.take_take, Nat.min_eq_left h1, List.append_assoc]
  have la : (v.take start).length = start := by simp; omega
  have lm : ((v.take stop).drop start).length = stop - start := by simp; omega
  obtain ⟨M', g1, g2⟩ := mergeSort_spec o (v.length + 1) (v.take start) ((v.take stop).drop start)
    (v.drop stop) (by omega)
  rw [← hv, la, lm, show start + (stop - start) = stop by omega] at g1
  have lm' : M'.length = stop - start := by rw [g2.perm.length_eq, lm]
  refine ⟨_, g1, ?_, ?_, ?_, ?_⟩
  · simp only [List.length_append, la, lm', List.length_drop]; omega
  · rw [List.take_append_of_le_length (by omega), List.take_of_length_le (by omega)]
  · rw [List.drop_append, List.drop_of_length_le (by omega), List.drop_append,
      List.drop_of_length_le (by omega), la, lm']
    simp
  · have := mid_range (v.take start) M' (v.drop stop)
    rw [la, lm', show start + (stop - start) = stop by omega] at this
    rw [this]; exact g2

/-- **C02.**  `sort!(vector, test:)` finishes, without access outside the vector, and sorts. -/
theorem default_sort_correct {lt : α → α → Bool} (o : StrictWeakOrder lt) (v : List α) :
    ∃ w, sort lt false v = .ok w ∧ SortOf lt v w := by
  obtain ⟨w, h1, h2⟩ := quickSort_spec o (v.length + 1) [] v [] (by omega)
  exact ⟨w, by simpa [sort] using h1, h2⟩

/-- **C02**, for a subrange. -/
theorem default_sort_range {lt : α → α → Bool} (o : StrictWeakOrder lt) (v : List α)
    (start stop : Nat) (h1 : start ≤ stop) (h2 : stop ≤ v.length) :
    ∃ w, quickSort lt (v.length + 1) v start stop = .ok w ∧ w.length = v.length ∧
      w.take start = v.take start ∧ w.drop stop = v.drop stop ∧
      SortOf lt ((v.take stop).drop start) ((w.take stop).drop start) := by
  have hv : v = v.take start ++ ((v.take stop).drop start ++ v.drop stop) := by
    conv => lhs; rw [← List.take_append_drop stop v, ← List.take_append_drop start (v.take stop)]
    rw [List.take_take, Nat.min_eq_left h1, List.append_assoc]
  have la : (v.take start).length = start := by simp; omega
  have lm : ((v.take stop).drop start).length = stop - start := by simp; omega
  obtain ⟨M', g1, g2⟩ := quickSort_spec o (v.length + 1) (v.take start) ((v.take stop).drop start)
    (v.drop stop) (by omega)
  rw [← hv, la, lm, show start + (stop - start) = stop by omega] at g1
  have lm' : M'.length = stop - start := by rw [g2.perm.length_eq, lm]
  refine ⟨_, g1, ?_, ?_, ?_, ?_⟩
  · simp only [List.length_append, la, lm', List.length_drop]; omega
  · rw [List.take_append_of_le_length (by omega), List.take_of_length_le (by omega)]
  · rw [List.drop_append, List.drop_of_length_le (by omega), List.drop_append,
      List.drop_of_length_le (by omega), la, lm']
    simp
  · have := mid_range (v.take start) M' (v.drop stop)
    rw [la, lm', show start + (stop - start) = stop by omega] at this
    rw [this]; exact g2

/-! ## C03: any test function -/

theorem insertionOuter_perm (lt : α → α → Bool) (A : List α) :
    ∀ (T P B : List α),
      ∃ P', insertionOuter lt A.length T.length (A.length + P.length) (A ++ (P ++ (T ++ B)))
        = .ok (A ++ (P' ++ B)) ∧ P'.Perm (P ++ T) := by
  intro T
  induction T with
  | nil => intro P B; exact ⟨P, by simp [insertionOuter], by simp⟩
  | cons c T ih =>
    intro P B
    simp only [List.length_cons, insertionOuter]
    have hr : rd (A ++ (P ++ (c :: T ++ B))) (A.length + P.length) = .ok c := by
      have e : A ++ (P ++ (c :: T ++ B)) = (A ++ P) ++ c :: (T ++ B) := by simp
      rw [e]; apply rd_at; simp
    rw [hr, bind_ok]
    obtain ⟨P1, P2, h1, h2, h3, h4⟩ := insertLoop_spec lt A c P c (T ++ B)
    have e : A.length + P.length - A.length = P.length := by omega
    rw [e]
    have e2 : A ++ (P ++ (c :: T ++ B)) = A ++ (P ++ c :: (T ++ B)) := by simp
    rw [e2, h4, bind_ok]
    obtain ⟨P', g1, g2⟩ := ih (P1 ++ c :: P2) B
    have hlen : A.length + (P1 ++ c :: P2).length = A.length + P.length + 1 := by
      rw [h1]; simp; omega
    rw [hlen] at g1
    refine ⟨P', g1, g2.trans ?_⟩
    have := (insert_perm (P1 := P1) (P2 := P2) (c := c)).append_right T
    rw [← h1] at this
    simpa using this

theorem insertionSort_perm (lt : α → α → Bool) (A M B : List α) :
    ∃ M', insertionSort lt (A ++ (M ++ B)) A.length (A.length + M.length) = .ok (A ++ (M' ++ B)) ∧
      M'.Perm M := by
  unfold insertionSort
  rw [rangeCheck_ok, bind_ok]
  cases M with
  | nil =>
    refine ⟨[], ?_, List.Perm.refl _⟩
    have : A.length + ([] : List α).length - (A.length + 1) = 0 := by simp
    rw [this]; rfl
  | cons m M =>
    obtain ⟨P', h1, h2⟩ := insertionOuter_perm lt A M [m] B
    refine ⟨P', ?_, by simpa using h2⟩
    have e : A.length + (m :: M).length - (A.length + 1) = M.length := by simp; omega
    rw [e]
    simpa using h1

theorem mergeSort_perm (lt : α → α → Bool) :
    ∀ (fuel : Nat) (A M B : List α), M.length < fuel →
      ∃ M', mergeSort lt fuel (A ++ (M ++ B)) A.length (A.length + M.length) = .ok (A ++ (M' ++ B)) ∧
        M'.Perm M := by
  intro fuel
  induction fuel with
  | zero => intro A M B h; omega
  | succ fuel ih =>
    intro A M B hf
    simp only [mergeSort]
    rw [rangeCheck_ok, bind_ok]
    have e : A.length + M.length - A.length = M.length := by omega
    rw [e]
    by_cases hs : M.length < smallSortSize
    · rw [if_pos hs]; exact insertionSort_perm lt A M B
    · rw [if_neg hs]
      have hs' : 10 ≤ M.length := by unfold smallSortSize at hs; omega
      rw [if_pos (by omega)]
      obtain ⟨X, Y, hXY, hXl⟩ : ∃ X Y, M = X ++ Y ∧ X.length = M.length / 2 :=
        ⟨M.take (M.length / 2), M.drop (M.length / 2), (List.take_append_drop _ _).symm, by
          rw [List.length_take]; omega⟩
      have hYl : Y.length = M.length - M.length / 2 := by
        have : M.length = X.length + Y.length := by rw [hXY]; simp
        omega
      rw [← hXl]
      obtain ⟨X', g1, g2⟩ := ih A X (Y ++ B) (by omega)
      have e1 : A ++ (M ++ B) = A ++ (X ++ (Y ++ B)) := by rw [hXY]; simp
      rw [e1, g1, bind_ok]
      have hX'l : X'.length = X.length := g2.length_eq
      obtain ⟨Y', f1, f2⟩ := ih (A ++ X') Y B (by omega)
      have hY'l : Y'.length = Y.length := f2.length_eq
      have e2 : A ++ (X' ++ (Y ++ B)) = (A ++ X') ++ (Y ++ B) := by simp
      have e3 : A.length + X.length = (A ++ X').length := by simp [hX'l]
      have e4 : A.length + M.length = (A ++ X').length + Y.length := by
        rw [hXY]; simp [hX'l]; omega
      rw [e2, e3, e4, f1, bind_ok]
      refine ⟨mergeList lt X' Y', ?_, (mergeList_perm lt X' Y').trans
        (hXY ▸ g2.append f2)⟩
      have hl := mergeLoop_spec lt B (X'.length + Y'.length) A X' [] Y' [] rfl
      simp only [List.append_nil, List.length_nil, Nat.add_zero, List.nil_append] at hl
      unfold merge
      rw [show A ++ X' ++ (Y' ++ B) = A ++ X' ++ Y' ++ B by simp,
        show (A ++ X').length + Y.length - A.length = X'.length + Y'.length by simp; omega,
        show (A ++ X').length + Y.length = A.length + X'.length + Y'.length by simp; omega,
        show (A ++ X').length = A.length + X'.length by simp, hl, bind_ok,
        show A ++ X' ++ Y' ++ B = A ++ ((X' ++ Y') ++ B) by simp]
      exact copyBack_spec _ _ _ _ (mergeList_perm lt X' Y').length_eq

/-- **C03 for the stable sort** holds in full: with *any* test function, also an inconsistent one,
it finishes, never leaves the vector, and permutes it. -/
theorem stable_sort_safe_any_test (lt : α → α → Bool) (v : List α) :
    ∃ w, sort lt true v = .ok w ∧ w.Perm v := by
  obtain ⟨w, h1, h2⟩ := mergeSort_perm lt (v.length + 1) [] v [] (by omega)
  exact ⟨w, by simpa [sort] using h1, h2⟩

/-- **C03 (part).**  With a strict weak order the default sort never leaves the vector. -/
theorem default_sort_safe_partial {lt : α → α → Bool} (o : StrictWeakOrder lt) (v : List α) :
    sort lt false v ≠ .oob ∧ sort lt false v ≠ .diverge := by
  obtain ⟨w, h, _⟩ := default_sort_correct o v
  rw [h]; exact ⟨by simp, by simp⟩

/-- **C03 is violated** by the default sort: with the test `\<=` and ten equal elements the scans of
`partition!`, compiled without bounds checks, run off the vector. -/
theorem default_sort_unsafe_for_nonstrict_test :
    sort (fun x y : Nat => decide (x ≤ y)) false (List.replicate 10 0) = .oob := by decide

/-- The strict order on the integers is a strict weak order, and so is comparison by a key: the
hypotheses of the theorems above are met by the tests people pass. -/
theorem int_lt_swo : StrictWeakOrder (fun x y : Int => decide (x < y)) :=
  ⟨by simp, by simp only [decide_eq_true_eq]; omega, by simp only [decide_eq_false_iff_not]; omega⟩

theorem key_lt_swo {β : Type} (f : β → Int) : StrictWeakOrder (fun x y => decide (f x < f y)) :=
  ⟨by simp, by simp only [decide_eq_true_eq]; omega, by simp only [decide_eq_false_iff_not]; omega⟩

/-- Non-vacuity: twelve elements with repeated keys (so that partitioning and merging really
happen); the stable sort keeps the tags of equal keys in order. -/
example : sort (fun x y : Int × Nat => decide (x.1 < y.1)) true
    [(3,0),(1,1),(2,2),(3,3),(1,4),(2,5),(0,6),(3,7),(1,8),(2,9),(0,10),(5,11)] =
    .ok [(0,6),(0,10),(1,1),(1,4),(1,8),(2,2),(2,5),(2,9),(3,0),(3,3),(3,7),(5,11)] := by decide

example : sort (fun x y : Int => decide (x < y)) false [3,1,2,3,1,2,0,3,1,2,0,5] =
    .ok [0,0,1,1,1,2,2,2,3,3,3,5] := by decide

end Verif.Sort
