import Verif.ClSeq.Lemmas

/-!
# Sequence functions in the manner of Common Lisp: the properties
-/

namespace Verif.ClSeq

variable {α : Type}

theorem find_sorted {p : Nat → Bool} {R : Nat → Nat → Prop} (hR : ∀ a b, R a b → R b a → False) {l : List Nat} {i : Nat}
    (hl : l.Pairwise R) : l.find? p = some i ↔ i ∈ l ∧ p i = true ∧ ∀ j ∈ l, R j i → ¬ p j = true := by
  rw [List.find?_eq_some_iff_append]
  constructor
  · rintro ⟨hp, as, bs, rfl, hn⟩
    refine ⟨by simp, hp, fun j hj hji hpj => ?_⟩
    obtain ⟨_, h2, _⟩ := List.pairwise_append.1 hl
    rcases List.mem_append.1 hj with hj | hj
    · have := hn j hj
      rw [hpj] at this
      cases this
    · rcases List.mem_cons.1 hj with rfl | hj
      · exact hR _ _ hji hji
      · exact hR _ _ hji ((List.pairwise_cons.1 h2).1 j hj)
  · rintro ⟨hi, hp, hn⟩
    obtain ⟨as, bs, rfl⟩ := List.append_of_mem hi
    refine ⟨hp, as, bs, rfl, fun a ha => ?_⟩
    obtain ⟨_, _, h3⟩ := List.pairwise_append.1 hl
    have := hn a (List.mem_append_left _ ha) (h3 a ha i (by simp))
    simpa using this

/-- **C156.**  `cl-position` returns the first index between `start:` and `end:` at which there is an element that is meant, or the last
one with `from-end?:`; and `#f` if there is none. -/
theorem position_first (hit : α → Bool) (xs : List α) {start finish : Nat} (h : start ≤ finish) (i : Nat) :
    (position hit xs start finish false = some i ↔
      start ≤ i ∧ i < finish ∧ HitAt hit xs i ∧ ∀ j, start ≤ j → j < i → ¬ HitAt hit xs j) ∧
    (position hit xs start finish true = some i ↔
      start ≤ i ∧ i < finish ∧ HitAt hit xs i ∧ ∀ j, i < j → j < finish → ¬ HitAt hit xs j) := by
  have hlt : (List.range' start (finish - start)).Pairwise (· < ·) := List.pairwise_lt_range' ..
  constructor
  · unfold position
    rw [find_sorted (R := (· < ·)) (fun a b h1 h2 => by omega) (by simpa [idxs] using hlt), mem_idxs h, hitAt_iff]
    simp only [mem_idxs h, hitAt_iff]
    constructor
    · rintro ⟨⟨h1, h2⟩, h3, h4⟩
      exact ⟨h1, h2, h3, fun j hj hji => h4 j ⟨hj, by omega⟩ hji⟩
    · rintro ⟨h1, h2, h3, h4⟩
      exact ⟨⟨h1, h2⟩, h3, fun j hj hji => h4 j hj.1 hji⟩
  · unfold position
    rw [find_sorted (R := (· > ·)) (fun a b h1 h2 => by omega) (by simpa [idxs, List.pairwise_reverse] using hlt), mem_idxs h,
      hitAt_iff]
    simp only [mem_idxs h, hitAt_iff]
    constructor
    · rintro ⟨⟨h1, h2⟩, h3, h4⟩
      exact ⟨h1, h2, h3, fun j hj hji => h4 j ⟨by omega, hji⟩ hj⟩
    · rintro ⟨h1, h2, h3, h4⟩
      exact ⟨⟨h1, h2⟩, h3, fun j hj hji => h4 j hji hj.2⟩

/-- **C156.**  And it returns `#f` only if there is none. -/
theorem position_none (hit : α → Bool) (xs : List α) {start finish : Nat} (h : start ≤ finish) (fromEnd : Bool) :
    position hit xs start finish fromEnd = none ↔ ∀ j, start ≤ j → j < finish → ¬ HitAt hit xs j := by
  unfold position
  rw [List.find?_eq_none]
  simp only [mem_idxs h, hitAt_iff]
  exact ⟨fun h1 j h2 h3 => h1 j ⟨h2, h3⟩, fun h1 j h2 => h1 j h2.1 h2.2⟩

example : position (· == 3) [1, 3, 2, 3, 3] 1 4 true = some 3 ∧ position (· == 3) [1, 3, 2, 3, 3] 2 5 false = some 3 ∧
    position (· == 1) [1, 3, 2, 3, 3] 1 5 false = none := by
  decide +kernel

/-- **C156.**  `cl-count` counts the elements between `start:` and `end:` that are meant. -/
theorem count_part (hit : α → Bool) (xs : List α) {start finish : Nat} (h : start ≤ finish) (fromEnd : Bool) :
    count hit xs start finish fromEnd = ((xs.drop start).take (finish - start)).countP hit := by
  unfold count
  rw [foldl_count, Nat.zero_add]
  have e : (List.range' start (finish - start)).countP (hitAt hit xs) = (part xs start finish).countP hit := by
    rw [countP_range, show start + (finish - start) = finish from by omega]
  unfold idxs
  split
  · rw [List.countP_reverse, e]
    rfl
  · rw [e]
    rfl

example : count (· == 3) [1, 3, 2, 3, 3] 1 4 true = 2 := by decide +kernel

/-- **C156.**  `cl-substitute!` replaces exactly the elements between `start:` and `end:` that are meant and before which (with
`from-end?:`, after which) there are less than `count:` others of them, if there is a count; it changes nothing else. -/
theorem substitute_exact (hit : α → Bool) (new : α) (xs : List α) {start finish : Nat} (h : start ≤ finish) (fromEnd : Bool)
    (k : Option Int) (j : Nat) :
    (start ≤ j ∧ j < finish ∧ HitAt hit xs j ∧
        (∀ c, k = some c → ((if fromEnd then part xs (j + 1) finish else part xs start j).countP hit : Int) < c) ∧
      (substitute hit new xs start finish fromEnd k)[j]? = some new) ∨
    (¬ (start ≤ j ∧ j < finish ∧ HitAt hit xs j ∧
        ∀ c, k = some c → ((if fromEnd then part xs (j + 1) finish else part xs start j).countP hit : Int) < c) ∧
      (substitute hit new xs start finish fromEnd k)[j]? = xs[j]?) := by
  unfold substitute
  by_cases hj : start ≤ j ∧ j < finish
  · have hnd : (idxs start finish fromEnd).Nodup := idxs_nodup
    have hsplit : ∃ l₁ l₂, idxs start finish fromEnd = l₁ ++ j :: l₂ ∧
        l₁.countP (hitAt hit xs) = (if fromEnd then part xs (j + 1) finish else part xs start j).countP hit := by
      unfold idxs
      rw [range_split hj.1 hj.2]
      cases fromEnd with
      | false =>
        refine ⟨_, _, rfl, ?_⟩
        rw [countP_range, show start + (j - start) = j from by omega]
        rfl
      | true =>
        refine ⟨(List.range' (j + 1) (finish - (j + 1))).reverse, (List.range' start (j - start)).reverse, by simp, ?_⟩
        rw [List.countP_reverse, countP_range, show j + 1 + (finish - (j + 1)) = finish from by omega]
        rfl
    obtain ⟨l₁, l₂, he, hc⟩ := hsplit
    rw [he] at hnd ⊢
    rw [subst_at hnd, hc, ← hitAt_iff]
    generalize ((if fromEnd then part xs (j + 1) finish else part xs start j).countP hit) = n
    by_cases hx : hitAt hit xs j = true
    · by_cases hn : ∀ c, k = some c → (n : Int) < c
      · refine .inl ⟨hj.1, hj.2, hx, hn, if_pos ?_⟩
        rw [hx]
        cases k with
        | none => rfl
        | some c =>
          have := hn c rfl
          simp only [Option.map_some, allowed, Bool.true_and, decide_eq_true_eq]
          omega
      · refine .inr ⟨fun hy => hn hy.2.2.2, if_neg fun hy => hn fun c hk => ?_⟩
        subst hk
        simp only [Option.map_some, allowed, Bool.and_eq_true, decide_eq_true_eq] at hy
        omega
    · exact .inr ⟨fun hy => hx hy.2.2.1, if_neg fun hy => hx (by simp only [Bool.and_eq_true] at hy; exact hy.1)⟩
  · exact .inr ⟨fun hx => hj ⟨hx.1, hx.2.1⟩, subst_other _ _ fun hm => hj ((mem_idxs h).1 hm)⟩

example : substitute (· == 3) 9 [3, 3, 2, 3, 3] 1 5 true (some 2) = [3, 3, 2, 9, 9] ∧
    substitute (· == 3) 9 [3, 3, 2, 3, 3] 1 5 false (some 2) = [3, 9, 2, 9, 3] := by
  decide +kernel

/-- **C156.**  `cl-remove-duplicates!` keeps what is before `start:` and after `end:`, and of the part between them the elements after
which there is none that is the same. -/
theorem remove_duplicates_last (same : α → α → Bool) (xs : List α) {start finish : Nat} (h : start ≤ finish)
    (hf : finish ≤ xs.length) : removeDuplicates same xs start finish false =
      xs.take start ++ lastOnes same (part xs start finish) ++ xs.drop finish := by
  unfold removeDuplicates
  have := dup_last (same := same) hf (xs.length - start) start [] (xs, start) kept_start (by omega)
  simp only at this ⊢
  rw [this, List.append_nil, List.append_assoc]
  congr 1
  unfold restLast
  split
  · rfl
  · rw [part_nil (by omega), show start = finish from by omega]
    rfl

/-- **C156.**  With `from-end?:` it keeps of the part between them the elements before which there is none that is the same, if being the
same is reflexive and transitive. -/
theorem remove_duplicates_first (same : α → α → Bool) (hr : ∀ x, same x x = true)
    (ht : ∀ x y z, same x y = true → same y z = true → same x z = true) (xs : List α) {start finish : Nat} (h : start ≤ finish)
    (hf : finish ≤ xs.length) : removeDuplicates same xs start finish true =
      xs.take start ++ firstOnes same (part xs start finish) ++ xs.drop finish := by
  unfold removeDuplicates
  have := dup_first (same := same) hf (by omega) (xs.length - start) start [] (xs, start) kept_start (by omega)
  simp only at this ⊢
  rw [this, List.append_assoc]
  congr 1
  unfold restFirst
  split
  · rw [firstAcc_eq hr ht]
  · rw [part_nil (by omega), show start = finish from by omega]
    rfl

example : removeDuplicates (· == ·) [1, 2, 1, 3, 2, 1, 4] 0 6 false = [3, 2, 1, 4] ∧
    removeDuplicates (· == ·) [1, 2, 1, 3, 2, 1, 4] 0 6 true = [1, 2, 3, 4] ∧
    removeDuplicates (· == ·) [1, 2, 1, 3, 2, 1, 4] 1 5 true = [1, 2, 1, 3, 1, 4] := by
  decide +kernel

/-- **C156.**  The full claim is that `cl-remove!` removes the elements between `start:` and `end:` that are meant, or so many of them as
`count:` says, from the front or from the end, and keeps all others in their order.  This is so without a count, an end and
`from-end?:`; each of them is refuted below. -/
theorem remove_partial (hit : α → Bool) (xs : List α) {start : Nat} (h : start ≤ xs.length) :
    remove hit xs start xs.length false none = xs.take start ++ (xs.drop start).filter (fun x => !hit x) := by
  unfold remove
  obtain ⟨s', h1, h2⟩ := remove_loop (hit := hit) (xs.length - start) start [] (xs, start) kept_start (by omega)
  simp only [idxs, Bool.false_eq_true, if_false, h1, h2, List.append_nil]

example : remove (· == 3) [3, 1, 3, 2, 3] 1 5 false none = [3, 1, 2] := by decide +kernel

/-- **C156, not so.**  With an end the elements after it are lost. -/
theorem remove_end_violated : remove (· == 3) [1, 3, 2, 4, 5] 0 3 false none = [1, 2] := by decide +kernel

/-- **C156, not so.**  The count is that of the elements that are kept, not of those that are removed. -/
theorem remove_count_violated : remove (· == 3) [3, 1, 3, 2, 4] 0 5 false (some 1) = [1] := by decide +kernel

/-- **C156, not so.**  From the end elements are overwritten before they are read. -/
theorem remove_from_end_violated : remove (· == 3) [1, 2, 3, 4] 0 4 true none = [4, 2, 4] := by decide +kernel

end Verif.ClSeq
