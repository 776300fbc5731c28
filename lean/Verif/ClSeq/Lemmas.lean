import Verif.ClSeq.Model
import Verif.ClSeq.Spec

/-!
# Lemmas on the sequence functions
-/

namespace Verif.ClSeq

variable {α : Type}

theorem hitAt_iff {hit : α → Bool} {xs : List α} {i : Nat} : hitAt hit xs i = true ↔ HitAt hit xs i := by
  unfold hitAt HitAt
  cases xs[i]? <;> simp

theorem mem_idxs {a b : Nat} {e : Bool} {i : Nat} (h : a ≤ b) : i ∈ idxs a b e ↔ a ≤ i ∧ i < b := by
  unfold idxs
  split <;> simp only [List.mem_reverse, List.mem_range'_1] <;> omega

theorem idxs_nodup {a b : Nat} {e : Bool} : (idxs a b e).Nodup := by
  unfold idxs
  split
  · exact List.pairwise_reverse.2 (List.Pairwise.imp Ne.symm (List.nodup_range' ..))
  · exact List.nodup_range' ..

theorem part_cons {xs : List α} {i b : Nat} {x : α} (h : xs[i]? = some x) (hi : i < b) : part xs i b = x :: part xs (i + 1) b := by
  obtain ⟨hl, hx⟩ := List.getElem?_eq_some_iff.1 h
  unfold part
  rw [List.drop_eq_getElem_cons hl, hx, show b - i = (b - (i + 1)) + 1 from by omega, List.take_succ_cons]

theorem part_nil {xs : List α} {i b : Nat} (h : b ≤ i) : part xs i b = [] := by
  unfold part
  rw [show b - i = 0 from by omega, List.take_zero]

/-- A question about indices is one about the part between them. -/
theorem any_range {p : α → Bool} {xs : List α} : ∀ (m a : Nat), (List.range' a m).any (hitAt p xs) = (part xs a (a + m)).any p
  | 0, a => by rw [part_nil (by omega)]; rfl
  | m + 1, a => by
    rw [List.range'_succ, List.any_cons, any_range m (a + 1)]
    cases h : xs[a]? with
    | none =>
      have hl := List.getElem?_eq_none_iff.1 h
      simp [hitAt, h, part, List.drop_eq_nil_of_le hl, List.drop_eq_nil_of_le (Nat.le_succ_of_le hl)]
    | some x =>
      rw [part_cons h (by omega), List.any_cons, show a + 1 + m = a + (m + 1) from by omega]
      simp [hitAt, h]

theorem countP_range {p : α → Bool} {xs : List α} : ∀ (m a : Nat),
    (List.range' a m).countP (hitAt p xs) = (part xs a (a + m)).countP p
  | 0, a => by rw [part_nil (by omega)]; rfl
  | m + 1, a => by
    rw [List.range'_succ, List.countP_cons, countP_range m (a + 1)]
    cases h : xs[a]? with
    | none =>
      have hl := List.getElem?_eq_none_iff.1 h
      simp [hitAt, h, part, List.drop_eq_nil_of_le hl, List.drop_eq_nil_of_le (Nat.le_succ_of_le hl)]
    | some x =>
      rw [part_cons h (by omega), List.countP_cons, show a + 1 + m = a + (m + 1) from by omega]
      simp [hitAt, h]

theorem foldl_count {p : Nat → Bool} : ∀ (l : List Nat) (n : Nat), l.foldl (fun n i => if p i then n + 1 else n) n = n + l.countP p
  | [], n => rfl
  | i :: l, n => by
    rw [List.foldl_cons, foldl_count l, List.countP_cons]
    by_cases h : p i = true
    · simp only [h, if_true]
      omega
    · simp only [h]
      rfl

/-- `cl-substitute!`: other indices are not touched. -/
theorem subst_other {hit : α → Bool} {new : α} {j : Nat} : ∀ (l : List Nat) (s : List α × Option Int), j ∉ l →
    (l.foldl (substStep hit new) s).1[j]? = s.1[j]?
  | [], _, _ => rfl
  | i :: l, s, h => by
    simp only [List.mem_cons, not_or] at h
    rw [List.foldl_cons, subst_other l _ h.2]
    unfold substStep
    split
    · dsimp only
      split
      · exact List.getElem?_set_ne (fun he => h.1 he.symm)
      · rfl
    · rfl

theorem hitAt_congr {hit : α → Bool} {xs ys : List α} {i : Nat} (h : xs[i]? = ys[i]?) : hitAt hit xs i = hitAt hit ys i := by
  unfold hitAt
  rw [h]

/-- The count after some rounds. -/
theorem subst_count {hit : α → Bool} {new : α} : ∀ (l : List Nat) (xs : List α) (k : Option Int), l.Nodup →
    (l.foldl (substStep hit new) (xs, k)).2 = k.map (· - (l.countP (hitAt hit xs) : Int))
  | [], xs, k, _ => by cases k <;> simp
  | i :: l, xs, k, hn => by
    obtain ⟨hi, hn⟩ := List.nodup_cons.1 hn
    rw [List.foldl_cons, List.countP_cons]
    have hsame : l.countP (hitAt hit (substStep hit new (xs, k) i).1) = l.countP (hitAt hit xs) := by
      apply List.countP_congr
      intro j hj
      have := subst_other (hit := hit) (new := new) (j := j) [i] (xs, k) (by
        simp only [List.mem_singleton]
        rintro rfl
        exact hi hj)
      have this' : (substStep hit new (xs, k) i).1[j]? = xs[j]? := this
      rw [hitAt_congr (hit := hit) this']
    have ih := subst_count (hit := hit) (new := new) l (substStep hit new (xs, k) i).1 (substStep hit new (xs, k) i).2 hn
    rw [hsame] at ih
    rw [show substStep hit new (xs, k) i = ((substStep hit new (xs, k) i).1, (substStep hit new (xs, k) i).2) from rfl, ih]
    unfold substStep
    cases hh : hitAt hit xs i with
    | false => simp
    | true =>
      cases k with
      | none => rfl
      | some k =>
        simp [lower]
        omega

/-- What `cl-substitute!` does at one of the indices. -/
theorem subst_at {hit : α → Bool} {new : α} {xs : List α} {k : Option Int} {l₁ l₂ : List Nat} {j : Nat}
    (hn : (l₁ ++ j :: l₂).Nodup) : ((l₁ ++ j :: l₂).foldl (substStep hit new) (xs, k)).1[j]? =
      if hitAt hit xs j && allowed (k.map (· - (l₁.countP (hitAt hit xs) : Int))) then some new else xs[j]? := by
  rw [List.nodup_append] at hn
  obtain ⟨h1, h2, h3⟩ := hn
  have hj1 : j ∉ l₁ := fun h => h3 j h j (by simp) rfl
  have hj2 := (List.nodup_cons.1 h2).1
  rw [List.foldl_append, List.foldl_cons, subst_other l₂ _ hj2]
  have hc := subst_count (hit := hit) (new := new) l₁ xs k h1
  have ho := subst_other (hit := hit) (new := new) (j := j) l₁ (xs, k) hj1
  unfold substStep at hc ho ⊢
  rw [hitAt_congr (hit := hit) ho, hc]
  cases hh : hitAt hit xs j with
  | false => simpa using ho
  | true =>
    obtain ⟨x, hx, _⟩ := hitAt_iff.1 hh
    simp only [if_true, Bool.true_and]
    split
    · have hl : j < (List.foldl (fun s i => if hitAt hit s.1 i then (if allowed s.2 then s.1.set i new else s.1, lower s.2) else s)
          (xs, k) l₁).1.length := by
        rw [hx] at ho
        exact (List.getElem?_eq_some_iff.1 ho).1
      rw [List.getElem?_set_self hl]
    · exact ho

theorem range_split {a b j : Nat} (h1 : a ≤ j) (h2 : j < b) :
    List.range' a (b - a) = List.range' a (j - a) ++ j :: List.range' (j + 1) (b - (j + 1)) := by
  have e1 := List.range'_append (s := a) (m := j - a) (n := b - j) (step := 1)
  rw [show a + 1 * (j - a) = j from by omega, show j - a + (b - j) = b - a from by omega,
    show b - j = (b - (j + 1)) + 1 from by omega, List.range'_succ] at e1
  exact e1.symm

/-- The state of the loops that keep elements: so many elements are kept, and the rest is as it was. -/
structure Kept (xs : List α) (start i : Nat) (kept : List α) (s : List α × Nat) : Prop where
  len : s.1.length = xs.length
  out : s.2 = start + kept.length
  le : s.2 ≤ i
  pre : s.1.take s.2 = xs.take start ++ kept
  rest : ∀ j, i ≤ j → s.1[j]? = xs[j]?

theorem kept_keep {xs : List α} {start i : Nat} {kept : List α} {s : List α × Nat} {x : α} (h : Kept xs start i kept s)
    (hx : xs[i]? = some x) : Kept xs start (i + 1) (kept ++ [x]) (keep s x) := by
  have hi : i < xs.length := (List.getElem?_eq_some_iff.1 hx).1
  have hle := h.le
  refine ⟨by simp [keep, h.len], by simp [keep, h.out]; omega, by simp [keep]; omega, ?_, fun j hj => ?_⟩
  · simp only [keep]
    rw [List.take_add_one, List.getElem?_set_self (by rw [h.len]; omega), List.take_set_of_le (by omega), h.pre]
    simp
  · simp only [keep]
    rw [List.getElem?_set_ne (by omega)]
    exact h.rest j (by omega)

theorem kept_skip {xs : List α} {start i : Nat} {kept : List α} {s : List α × Nat} (h : Kept xs start i kept s) :
    Kept xs start (i + 1) kept s :=
  ⟨h.len, h.out, Nat.le_succ_of_le h.le, h.pre, fun j hj => h.rest j (by omega)⟩

theorem kept_start {xs : List α} {start : Nat} : Kept xs start start [] (xs, start) :=
  ⟨rfl, rfl, Nat.le_refl _, by simp, fun _ _ => rfl⟩

/-- `cl-remove!` without a count. -/
theorem remove_loop {hit : α → Bool} {xs : List α} {start : Nat} : ∀ (m i : Nat) (kept : List α) (s : List α × Nat),
    Kept xs start i kept s → i + m = xs.length →
    ∃ s', (List.range' i m).foldl (removeStep hit) (s, none) = (s', none) ∧
      s'.1.take s'.2 = xs.take start ++ kept ++ (xs.drop i).filter (fun x => !hit x)
  | 0, i, kept, s, h, hi => ⟨s, rfl, by rw [h.pre, List.drop_eq_nil_of_le (by omega)]; simp⟩
  | m + 1, i, kept, s, h, hi => by
    have hl : i < xs.length := by omega
    have hx : xs[i]? = some xs[i] := List.getElem?_eq_getElem hl
    rw [List.range'_succ, List.foldl_cons, List.drop_eq_getElem_cons hl]
    have hstep : removeStep hit (s, none) i = (if hit xs[i] then s else keep s xs[i], none) := by
      unfold removeStep
      dsimp only
      rw [h.rest i (Nat.le_refl _), hx]
      dsimp only
      split <;> rfl
    rw [hstep]
    cases hh : hit xs[i] with
    | true =>
      simp only [if_true]
      obtain ⟨s', h1, h2⟩ := remove_loop (hit := hit) m (i + 1) kept s (kept_skip h) (by omega)
      exact ⟨s', h1, by rw [h2, List.filter_cons_of_neg (by simp [hh])]⟩
    | false =>
      simp only [Bool.false_eq_true, if_false]
      obtain ⟨s', h1, h2⟩ := remove_loop (hit := hit) m (i + 1) _ _ (kept_keep h hx) (by omega)
      exact ⟨s', h1, by rw [h2, List.filter_cons_of_pos (by simp [hh])]; simp⟩

/-- What is kept of the elements from an index on, if the last ones are kept. -/
def restLast (same : α → α → Bool) (xs : List α) (finish i : Nat) : List α :=
  if i < finish then lastOnes same (part xs i finish) ++ xs.drop finish else xs.drop i

theorem dup_last {same : α → α → Bool} {xs : List α} {start finish : Nat} (hf : finish ≤ xs.length) :
    ∀ (m i : Nat) (kept : List α) (s : List α × Nat), Kept xs start i kept s → i + m = xs.length →
    let s' := (List.range' i m).foldl (dupStep same start finish false) s
    s'.1.take s'.2 = xs.take start ++ kept ++ restLast same xs finish i
  | 0, i, kept, s, h, hi => by
    have : restLast same xs finish i = [] := by
      unfold restLast
      rw [if_neg (by omega), List.drop_eq_nil_of_le (by omega)]
    rw [this]
    simp [h.pre]
  | m + 1, i, kept, s, h, hi => by
    have hl : i < xs.length := by omega
    have hx : xs[i]? = some xs[i] := List.getElem?_eq_getElem hl
    rw [List.range'_succ, List.foldl_cons]
    have hany : anyAt same s.1 xs[i] (List.range' (i + 1) (finish - (i + 1))) = (part xs (i + 1) finish).any (same · xs[i]) := by
      unfold anyAt
      have e : (List.range' (i + 1) (finish - (i + 1))).any (hitAt (same · xs[i]) s.1) =
          (List.range' (i + 1) (finish - (i + 1))).any (hitAt (same · xs[i]) xs) := by
        rw [Bool.eq_iff_iff, List.any_eq_true, List.any_eq_true]
        constructor <;> rintro ⟨j, hj, hp⟩ <;> refine ⟨j, hj, ?_⟩ <;> rw [List.mem_range'_1] at hj
        · rwa [← hitAt_congr (h.rest j (by omega))]
        · rwa [hitAt_congr (h.rest j (by omega))]
      rw [e, any_range]
      by_cases hif : i + 1 ≤ finish
      · rw [show i + 1 + (finish - (i + 1)) = finish from by omega]
      · rw [part_nil (by omega), part_nil (by omega)]
    have hstep : dupStep same start finish false s i =
        if decide (finish ≤ i) || !(part xs (i + 1) finish).any (same · xs[i]) then keep s xs[i] else s := by
      unfold dupStep single
      rw [h.rest i (Nat.le_refl _), hx]
      simp only [Bool.false_eq_true, if_false, hany]
    rw [hstep]
    by_cases hif : finish ≤ i
    · have := dup_last (same := same) hf m (i + 1) _ _ (kept_keep h hx) (by omega)
      simp only [hif, decide_true, Bool.true_or, if_true]
      rw [this]
      unfold restLast
      rw [if_neg (by omega), if_neg (by omega), List.drop_eq_getElem_cons hl]
      simp
    · have hr : restLast same xs finish i = if (part xs (i + 1) finish).any (same · xs[i]) then restLast same xs finish (i + 1)
          else xs[i] :: restLast same xs finish (i + 1) := by
        have hr' : restLast same xs finish (i + 1) = lastOnes same (part xs (i + 1) finish) ++ xs.drop finish := by
          unfold restLast
          split
          · rfl
          · rw [part_nil (by omega), show i + 1 = finish from by omega]
            rfl
        rw [hr']
        unfold restLast
        rw [if_pos (by omega), part_cons hx (by omega), lastOnes]
        split <;> simp
      rw [hr]
      simp only [hif, decide_false, Bool.false_or]
      cases hh : (part xs (i + 1) finish).any (same · xs[i]) with
      | true =>
        simp only [Bool.not_true, Bool.false_eq_true, if_false, if_true]
        exact dup_last hf m (i + 1) _ _ (kept_skip h) (by omega)
      | false =>
        simp only [Bool.not_false, Bool.false_eq_true, if_false, if_true]
        have := dup_last (same := same) hf m (i + 1) _ _ (kept_keep h hx) (by omega)
        rw [this]
        simp

/-- The first ones are kept, after those that were kept before. -/
def firstAcc (same : α → α → Bool) (kept : List α) (l : List α) : List α :=
  l.foldl (fun k x => if k.any (same · x) then k else k ++ [x]) kept

def restFirst (same : α → α → Bool) (xs : List α) (finish i : Nat) (kept : List α) : List α :=
  if i < finish then firstAcc same kept (part xs i finish) ++ xs.drop finish else kept ++ xs.drop i

theorem kept_part {xs : List α} {start i : Nat} {kept : List α} {s : List α × Nat} (h : Kept xs start i kept s)
    (hs : start ≤ xs.length) : part s.1 start s.2 = kept := by
  unfold part
  rw [← List.drop_take, h.pre, List.drop_append_of_le_length (by simp; omega)]
  simp

theorem dup_first {same : α → α → Bool} {xs : List α} {start finish : Nat} (hf : finish ≤ xs.length) (hs : start ≤ xs.length) :
    ∀ (m i : Nat) (kept : List α) (s : List α × Nat), Kept xs start i kept s → i + m = xs.length →
    let s' := (List.range' i m).foldl (dupStep same start finish true) s
    s'.1.take s'.2 = xs.take start ++ restFirst same xs finish i kept
  | 0, i, kept, s, h, hi => by
    have : restFirst same xs finish i kept = kept := by
      unfold restFirst
      rw [if_neg (by omega), List.drop_eq_nil_of_le (by omega)]
      simp
    rw [this]
    simp [h.pre]
  | m + 1, i, kept, s, h, hi => by
    have hl : i < xs.length := by omega
    have hx : xs[i]? = some xs[i] := List.getElem?_eq_getElem hl
    rw [List.range'_succ, List.foldl_cons]
    have hstep : dupStep same start finish true s i =
        if decide (finish ≤ i) || !kept.any (same · xs[i]) then keep s xs[i] else s := by
      unfold dupStep single anyAt
      rw [h.rest i (Nat.le_refl _), hx]
      simp only [if_true]
      rw [any_range, show start + (s.2 - start) = s.2 from by have := h.out; omega, kept_part h hs]
    rw [hstep]
    by_cases hif : finish ≤ i
    · have := dup_first (same := same) hf hs m (i + 1) _ _ (kept_keep h hx) (by omega)
      simp only [hif, decide_true, Bool.true_or, if_true]
      rw [this]
      unfold restFirst
      rw [if_neg (by omega), if_neg (by omega), List.drop_eq_getElem_cons hl]
      simp
    · have hr : restFirst same xs finish i kept =
          restFirst same xs finish (i + 1) (if kept.any (same · xs[i]) then kept else kept ++ [xs[i]]) := by
        unfold restFirst
        rw [if_pos (by omega : i < finish), part_cons hx (by omega), firstAcc, List.foldl_cons]
        by_cases h2 : i + 1 < finish
        · rw [if_pos h2]
          rfl
        · rw [if_neg h2, part_nil (by omega), show i + 1 = finish from by omega]
          rfl
      rw [hr]
      simp only [hif, decide_false, Bool.false_or]
      cases hh : kept.any (same · xs[i]) with
      | true =>
        simp only [Bool.not_true, Bool.false_eq_true, if_false, if_true]
        exact dup_first hf hs m (i + 1) _ _ (kept_skip h) (by omega)
      | false =>
        simp only [Bool.not_false, Bool.false_eq_true, if_false, if_true]
        exact dup_first hf hs m (i + 1) _ _ (kept_keep h hx) (by omega)

/-- Every element has one that is the same among those that are left. -/
theorem lastOnes_any {same : α → α → Bool} (hr : ∀ x, same x x = true) (ht : ∀ x y z, same x y = true → same y z = true → same x z = true)
    (z : α) : ∀ l : List α, (lastOnes same l).any (same · z) = l.any (same · z)
  | [] => rfl
  | x :: l => by
    rw [lastOnes]
    split
    · rename_i h
      rw [lastOnes_any hr ht z l, List.any_cons]
      cases hx : same x z with
      | false => rfl
      | true =>
        rw [List.any_eq_true] at h
        obtain ⟨y, hy, hyx⟩ := h
        rw [Bool.true_or, List.any_eq_true]
        exact ⟨y, hy, ht y x z hyx hx⟩
    · rw [List.any_cons, List.any_cons, lastOnes_any hr ht z l]

theorem firstAcc_eq {same : α → α → Bool} (hr : ∀ x, same x x = true)
    (ht : ∀ x y z, same x y = true → same y z = true → same x z = true) (l : List α) : firstAcc same [] l = firstOnes same l := by
  have key : ∀ r : List α, firstAcc same [] r.reverse = (lastOnes same r).reverse := by
    intro r
    induction r with
    | nil => rfl
    | cons x r ih =>
      rw [List.reverse_cons, firstAcc, List.foldl_append, List.foldl_cons, List.foldl_nil]
      unfold firstAcc at ih
      rw [ih, lastOnes, List.any_reverse, lastOnes_any hr ht]
      split <;> simp
  have := key l.reverse
  rw [List.reverse_reverse] at this
  exact this

end Verif.ClSeq
