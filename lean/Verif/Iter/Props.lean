/-
The properties of the functions on sequences.
-/
import Verif.Iter.Lemmas
import Mathlib.Data.List.Perm.Subperm

namespace Verif.Iter

variable {α β : Type}

/-! ### fill!, replace-elements!, copy-sequence and replace-subsequence! -/

/-- `fill!` stores the value in exactly the elements from `start:` up to `end:`. -/
theorem fill_ok (s : S α) (v : α) {start : Int} {last : Option Int} {i j fuel : Nat} (h : Bounds s.items.length start last i j) (hf : s.items.length < fuel) :
    fill fuel s v start last = .ok { s with items := splice s.items i j (List.replicate (j - i) v) } := by
  obtain ⟨h1, h2, h3, h4⟩ := h
  have hall : ∀ i ≤ s.items.length, fillAll v (limitS s) fuel s (stateAt s i) =
      .ok { s with items := splice s.items i s.items.length (List.replicate (s.items.length - i) v) } := by
    intro i hi
    have := fillAll_eq s v i fuel 0 hi (by omega)
    simp only [Nat.add_zero, List.replicate_zero, splice_nil] at this
    exact this
  unfold fill
  by_cases h0 : start = 0 ∧ last = none
  · rw [if_pos h0, initS_eq, hall 0 (by omega)]
    obtain ⟨h5, rfl⟩ := h0
    have hi : i = 0 := by omega
    have hj : j = s.items.length := by simp at h2; omega
    rw [hi, hj]
  · rw [if_neg h0, initS_eq, show (0 : Int) = ((0 : Nat) : Int) from rfl, fillSkip_eq s start fuel 0 (by omega) (by omega) (by omega), if_pos (by omega)]
    unfold fillRest
    dsimp only
    rw [if_neg (by simp), show start.toNat = i by omega]
    cases last with
    | none =>
      dsimp only
      rw [hall i (by omega)]
      have hj : j = s.items.length := by simp at h2; omega
      rw [hj]
    | some last =>
      simp only [Option.getD_some] at h2
      dsimp only
      rw [if_pos (by omega), h1, h2]
      have := fillTo_eq s v i j fuel 0 (by omega) (by omega) (by omega)
      simp only [Nat.add_zero, List.replicate_zero, splice_nil] at this
      rw [this]
      dsimp only
      rw [show min j s.items.length = j by omega, if_pos rfl]

/-- Other bounds are an error. -/
theorem fill_bad (s : S α) (v : α) {start : Int} {last : Option Int} {fuel : Nat} (h : ∀ i j, ¬ Bounds s.items.length start last i j)
    (hf : s.items.length < fuel) : fill fuel s v start last = .range := by
  unfold fill
  rw [if_neg (by rintro ⟨rfl, rfl⟩; exact h 0 s.items.length ⟨rfl, rfl, by omega, by omega⟩), initS_eq, show (0 : Int) = ((0 : Nat) : Int) from rfl,
    fillSkip_eq s start fuel 0 (by omega) (by omega) (by omega)]
  by_cases hs : 0 ≤ start ∧ start ≤ s.items.length
  · rw [if_pos hs]
    unfold fillRest
    dsimp only
    rw [if_neg (by simp)]
    cases last with
    | none => exact absurd ⟨by omega, rfl, by omega, by omega⟩ (h start.toNat s.items.length)
    | some last =>
      dsimp only
      by_cases hl : start ≤ last
      · rw [if_pos hl]
        have hbig : (s.items.length : Int) < last := by
          by_cases hc : last ≤ s.items.length
          · exact absurd ⟨by omega, by simp; omega, by omega, by omega⟩ (h start.toNat last.toNat)
          · omega
        have := fillTo_eq s v start.toNat last.toNat fuel 0 (by omega) (by omega) (by omega)
        simp only [Nat.add_zero, List.replicate_zero, splice_nil] at this
        rw [show ((last.toNat : Nat) : Int) = last by omega, show ((start.toNat : Nat) : Int) = start by omega] at this
        rw [this]
        dsimp only
        rw [if_neg (by omega)]
      · rw [if_neg hl]
  · rw [if_neg hs]
    unfold fillRest
    dsimp only
    rw [if_pos (by omega)]

example : Bounds 4 1 (some 3) 1 3 ∧ fill 5 (⟨.list, [1, 2, 3, 4], 0⟩ : S Nat) 9 1 (some 3) = .ok ⟨.list, [1, 9, 9, 4], 0⟩ ∧
    fill 5 (⟨.deque, [1, 2, 3, 4], 7⟩ : S Nat) 9 3 (some 2) = .range ∧ fill 5 (⟨.vector, [1, 2, 3, 4], 0⟩ : S Nat) 9 1 (some 5) = .range := by
  unfold Bounds; decide

/-- `replace-elements!` replaces exactly the elements that satisfy the predicate, or the first `count` of them. -/
theorem replace_elements (s : S α) (pred : α → Bool) (new : α → α) (count : Option Nat) {fuel : Nat} (hf : s.items.length < fuel) :
    replaceElements fuel s pred new (count.map (fun n : Nat => (n : Int))) = .ok { s with items := replaced pred new count s.items } :=
  replaceLoop_eq s pred new fuel [] s.items count (by simp) hf

example : replaceElements 6 (⟨.deque, [1, 2, 1, 1], 3⟩ : S Nat) (· == 1) (· + 8) (some 2) = .ok ⟨.deque, [9, 2, 9, 1], 3⟩ := by decide

/-- `copy-sequence` copies exactly the elements from `start:` up to `end:`. -/
theorem copy_sequence (off : Nat) (s : S α) {start : Int} {last : Option Int} {i j : Nat} (h : Bounds s.items.length start last i j) :
    copySequence off s start last = .ok ⟨s.kind, (s.items.take j).drop i, off⟩ := by
  unfold copySequence
  rw [checkBounds_ok h]
  obtain ⟨h1, h2, h3, h4⟩ := h
  dsimp only
  rw [h1]
  by_cases he : i = j
  · rw [if_pos (by omega), he, List.drop_eq_nil_of_le (by simp; omega)]
  · rw [if_neg (by omega), List.getElem?_eq_getElem (by omega)]
    dsimp only
    rw [show ((j : Int) - i).toNat = j - i by omega, show ((i : Int)).toNat = i by omega, initS_eq s, skipS_stateAt s i 0 (by omega), Nat.zero_add,
      copyN_eq s _ _ _ _ (by omega), initS_eq, storeAll_at _ _ _ (by simp [fresh]; omega)]
    dsimp only
    have hlen : ((s.items.drop i).take (j - i)).length = j - i := by simp; omega
    rw [hlen]
    congr 1
    unfold fresh splice
    simp [List.drop_take]

theorem copy_sequence_bad (off : Nat) (s : S α) {start : Int} {last : Option Int} (h : ∀ i j, ¬ Bounds s.items.length start last i j) :
    copySequence off s start last = .range := by
  unfold copySequence
  rw [checkBounds_bad h]

example : copySequence 2 (⟨.list, [1, 2, 3, 4], 0⟩ : S Nat) 1 (some 3) = .ok ⟨.list, [2, 3], 2⟩ ∧ copySequence 0 (⟨.list, [1, 2, 3, 4], 0⟩ : S Nat) 3 (some 2) = .range := by
  decide

theorem splice_end (A D tail : List α) (hD : D.length ≤ tail.length) : splice (A ++ D) A.length (A.length + tail.length) tail = A ++ tail := by
  unfold splice
  rw [List.take_left', List.drop_of_length_le (l := A ++ D) (by rw [List.length_append]; omega), List.append_nil]
  rfl

/-- `replace-subsequence!` returns the elements with the new ones in the place of those from `start:` up to
    `end:`. -/
theorem replace_subsequence (off : Nat) (blank : α) (s : S α) (insert : List α) {start : Int} {last : Option Int} {i j : Nat}
    (h : Bounds s.items.length start last i j) :
    ∃ f, replaceSubsequence off blank s insert start last = .ok ⟨s.kind, splice s.items i j insert, f⟩ := by
  unfold replaceSubsequence
  rw [checkBounds_ok h]
  obtain ⟨h1, h2, h3, h4⟩ := h
  dsimp only
  rw [h1]
  by_cases hsz : (j : Int) - i = insert.length
  · rw [if_pos hsz, Int.toNat_natCast, initS_eq, skipS_stateAt s i 0 (by omega), Nat.zero_add, storeAll_at _ _ _ (by omega)]
    refine ⟨s.first, ?_⟩
    dsimp only
    rw [show i + insert.length = j by omega]
  · rw [if_neg hsz]
    have hnew : ((s.items.length : Int) - ((j : Int) - i) + insert.length).toNat = s.items.length - (j - i) + insert.length := by omega
    rw [hnew]
    refine ⟨off, ?_⟩
    by_cases hw : (i : Int) = 0 ∧ (j : Int) = s.items.length
    · rw [if_pos hw, initS_eq, storeAll_at _ _ _ (by simp [fresh])]
      dsimp only [fresh]
      have hi : i = 0 := by omega
      have hj : j = s.items.length := by omega
      subst hi; subst hj
      congr 2
      unfold splice
      simp
    · rw [if_neg hw, Int.toNat_natCast, Int.toNat_natCast, initS_eq s, copyN_eq _ _ _ _ _ (by omega), initS_eq, storeAll_at _ _ _ (by simp [fresh]; omega)]
      have hti : ((s.items.drop 0).take i).length = i := by simp; omega
      dsimp only [replaceMid]
      rw [hti, Nat.zero_add]
      -- the new sequence after the first part
      have hN : ((fresh off s (s.items.length - (j - i) + insert.length) blank).items).length = s.items.length - (j - i) + insert.length := by simp [fresh]
      have hs1 : ∀ N : List α, N.length = s.items.length - (j - i) + insert.length → ∀ (w : List α), i + w.length ≤ N.length →
          splice (splice N 0 i (s.items.take i)) i (i + w.length) w = splice N 0 (i + w.length) (s.items.take i ++ w) := by
        intro N hl w hw
        unfold splice
        have : (s.items.take i).length = i := by simp; omega
        simp only [List.take_zero, List.nil_append]
        rw [List.take_append_of_le_length (by omega), List.take_of_length_le (by omega), List.drop_append, this,
          List.drop_of_length_le (by omega), List.nil_append, List.drop_drop]
        simp
      have hst := storeAll_at ({ fresh off s (s.items.length - (j - i) + insert.length) blank with
        items := splice (fresh off s (s.items.length - (j - i) + insert.length) blank).items 0 i ((s.items.drop 0).take i) }) i insert
        (by dsimp only; rw [splice_length (by omega) (by rw [hN]; omega), hti, hN]; omega)
      rw [show stateAt (fresh off s (s.items.length - (j - i) + insert.length) blank) i =
        stateAt ({ fresh off s (s.items.length - (j - i) + insert.length) blank with
        items := splice (fresh off s (s.items.length - (j - i) + insert.length) blank).items 0 i ((s.items.drop 0).take i) }) i from rfl, hst]
      dsimp only
      rw [List.drop_zero, hs1 _ hN insert (by rw [hN]; omega)]
      unfold replaceTail
      by_cases hj : j = s.items.length
      · rw [if_pos hj]
        congr 1
        unfold splice fresh
        simp only [List.take_zero, List.nil_append]
        congr 1
        rw [List.drop_of_length_le (by simp; omega), List.append_nil, hj, List.drop_length, List.append_nil]
      · rw [if_neg hj, skipS_stateAt s (j - i) i (by omega), show i + (j - i) = j by omega, copyN_eq _ _ _ _ _ (by omega)]
        have hst2 := storeAll_at ({ fresh off s (s.items.length - (j - i) + insert.length) blank with
          items := splice (fresh off s (s.items.length - (j - i) + insert.length) blank).items 0 (i + insert.length) (s.items.take i ++ insert) }) (i + insert.length)
          ((s.items.drop j).take (s.items.length - j))
          (by dsimp only; rw [splice_length (by omega) (by rw [hN]; omega), hN]; simp; omega)
        rw [show stateAt ({ fresh off s (s.items.length - (j - i) + insert.length) blank with
          items := splice (fresh off s (s.items.length - (j - i) + insert.length) blank).items 0 i (s.items.take i) }) (i + insert.length) =
          stateAt ({ fresh off s (s.items.length - (j - i) + insert.length) blank with
          items := splice (fresh off s (s.items.length - (j - i) + insert.length) blank).items 0 (i + insert.length) (s.items.take i ++ insert) }) (i + insert.length)
          from rfl, hst2]
        dsimp only
        congr 1
        have htail : (s.items.drop j).take (s.items.length - j) = s.items.drop j := List.take_of_length_le (by simp)
        rw [htail]
        have hl : (s.items.take i ++ insert).length = i + insert.length := by simp; omega
        have := splice_end (s.items.take i ++ insert) ((List.replicate (s.items.length - (j - i) + insert.length) blank).drop (i + insert.length)) (s.items.drop j)
          (by simp only [List.length_drop, List.length_replicate]; omega)
        rw [hl] at this
        dsimp only [fresh]
        congr 1

theorem replace_subsequence_bad (off : Nat) (blank : α) (s : S α) (insert : List α) {start : Int} {last : Option Int}
    (h : ∀ i j, ¬ Bounds s.items.length start last i j) : replaceSubsequence off blank s insert start last = .range := by
  unfold replaceSubsequence
  rw [checkBounds_bad h]

example : replaceSubsequence 0 0 (⟨.vector, [1, 2, 3, 4], 0⟩ : S Nat) [7, 8, 9] 1 (some 2) = .ok ⟨.vector, [1, 7, 8, 9, 3, 4], 0⟩ := by decide

/-! ### subsequence-position -/

/-- The places from `i` on. -/
structure From' (test : α → β → Bool) (l : List α) (pat : List β) (i : Nat) (places : List Nat) : Prop where
  ordered : places.Pairwise (· < ·)
  all : ∀ x, x ∈ places ↔ FoundAt test l pat x ∧ i ≤ x

theorem From'.here {test : α → β → Bool} {l : List α} {pat : List β} {i : Nat} {places : List Nat} (h : From' test l pat i places)
    (hf : FoundAt test l pat i) : ∃ rest, places = i :: rest ∧ From' test l pat (i + 1) rest := by
  obtain ⟨ho, ha⟩ := h
  have hi : i ∈ places := (ha i).2 ⟨hf, Nat.le_refl _⟩
  cases places with
  | nil => cases hi
  | cons x rest =>
    rw [List.pairwise_cons] at ho
    have hx := (ha x).1 (by simp)
    have hxi : x = i := by
      rcases List.mem_cons.mp hi with h | h
      · exact h.symm
      · have := ho.1 i h; omega
    subst hxi
    refine ⟨rest, rfl, ho.2, fun y => ⟨fun hy => ?_, fun hy => ?_⟩⟩
    · exact ⟨((ha y).1 (by simp [hy])).1, ho.1 y hy⟩
    · have := (ha y).2 ⟨hy.1, by omega⟩
      rcases List.mem_cons.mp this with h | h
      · omega
      · exact h

theorem From'.skip {test : α → β → Bool} {l : List α} {pat : List β} {i : Nat} {places : List Nat} (h : From' test l pat i places)
    (hf : ¬ FoundAt test l pat i) : From' test l pat (i + 1) places := by
  refine ⟨h.ordered, fun x => ?_⟩
  rw [h.all x]
  refine ⟨fun ⟨h1, h2⟩ => ⟨h1, ?_⟩, fun ⟨h1, h2⟩ => ⟨h1, by omega⟩⟩
  by_cases hx : x = i
  · subst hx; exact absurd h1 hf
  · omega

theorem search_eq (test : α → β → Bool) (big : S α) (pat : S β) (hne : pat.items ≠ []) : ∀ (k i j : Nat) (count : Int) (places : List Nat),
    i + j ≤ big.items.length → j ≤ pat.items.length → (∀ (j' : Nat), j' < j → ∀ a b, big.items[i + j']? = some a → pat.items[j']? = some b → test a b = true) →
    From' test big.items pat.items i places → (big.items.length - i) * (pat.items.length + 1) + (pat.items.length - j) < k →
    search test big pat k i (stateAt big i) (stateAt big (i + j)) (stateAt pat j) count =
      .ok (if 1 ≤ count then places[(count - 1).toNat]? else none)
  | 0, _, _, _, _, _, _, _, _, h => by omega
  | k + 1, i, j, count, places, h1, h2, hm, hp, hk => by
    have hpos : 0 < pat.items.length := List.length_pos_iff.mpr hne
    rw [search, finishedS_stateAt pat h2, finishedS_stateAt big h1, curS_stateAt, curS_stateAt, initS_eq]
    by_cases hj : j = pat.items.length
    · rw [if_pos (by simpa using hj)]
      obtain ⟨rest, hr, hrest⟩ := hp.here ⟨by omega, fun j' a b ha hb => by
        have : j' < pat.items.length := (List.getElem?_eq_some_iff.mp hb).1
        exact hm j' (by omega) a b ha hb⟩
      subst hr
      by_cases hc : count = 1
      · rw [if_pos hc, hc]
        simp
      · rw [if_neg hc, nextS_stateAt big (by omega)]
        have hmul : (big.items.length - i) * (pat.items.length + 1) = (big.items.length - (i + 1)) * (pat.items.length + 1) + (pat.items.length + 1) := by
          rw [← Nat.succ_mul]; congr 1; omega
        have := search_eq test big pat hne k (i + 1) 0 (count - 1) rest (by omega) (by omega) (fun j' h => by omega) hrest (by omega)
        rw [Nat.add_zero] at this
        rw [this]
        by_cases hc1 : 1 ≤ count
        · rw [if_pos (by omega), if_pos hc1, show (count - 1).toNat = (count - 1 - 1).toNat + 1 by omega, List.getElem?_cons_succ]
        · rw [if_neg (by omega), if_neg hc1]
    · rw [if_neg (by simpa using hj)]
      by_cases hb : i + j = big.items.length
      · rw [if_pos (by simpa using hb)]
        have hnil : places = [] := by
          cases places with
          | nil => rfl
          | cons x rest =>
            have := (hp.all x).1 (by simp)
            have h3 := this.1.1
            omega
        rw [hnil]
        simp
      · rw [if_neg (by simpa using hb), List.getElem?_eq_getElem (by omega), List.getElem?_eq_getElem (by omega)]
        dsimp only
        by_cases ht : test big.items[i + j] pat.items[j] = true
        · rw [if_pos ht, nextS_stateAt big (by omega), nextS_stateAt pat (by omega)]
          refine search_eq test big pat hne k i (j + 1) count places (by omega) (by omega) (fun j' hj' a b ha hb' => ?_) hp (by omega)
          by_cases he : j' = j
          · subst he
            rw [List.getElem?_eq_getElem (by omega)] at ha hb'
            cases ha; cases hb'
            exact ht
          · exact hm j' (by omega) a b ha hb'
        · rw [if_neg ht, nextS_stateAt big (by omega)]
          have hmul : (big.items.length - i) * (pat.items.length + 1) = (big.items.length - (i + 1)) * (pat.items.length + 1) + (pat.items.length + 1) := by
            rw [← Nat.succ_mul]; congr 1; omega
          have := search_eq test big pat hne k (i + 1) 0 count places (by omega) (by omega) (fun j' h => by omega)
            (hp.skip (fun hf => ht (hf.2 j _ _ (List.getElem?_eq_getElem (by omega)) (List.getElem?_eq_getElem (by omega))))) (by omega)
          rw [Nat.add_zero] at this
          exact this

/-- `subsequence-position` answers the place of occurrence number `count`. -/
theorem subsequence_position_partial (test : α → β → Bool) (big : S α) (pat : S β) (hne : pat.items ≠ []) (count : Nat) (hc : 1 ≤ count) {places : List Nat}
    (hp : Occurrences test big.items pat.items places) {fuel : Nat} (hf : (big.items.length + 1) * (pat.items.length + 1) ≤ fuel) :
    subsequencePosition test fuel big pat count = .ok ((places[count - 1]?).map (fun n : Nat => (n : Int))) := by
  have hfrom : From' test big.items pat.items 0 places := ⟨hp.ordered, fun x => by rw [hp.all x]; simp⟩
  have hmul : (big.items.length + 1) * (pat.items.length + 1) = big.items.length * (pat.items.length + 1) + (pat.items.length + 1) := Nat.succ_mul _ _
  have := search_eq test big pat hne fuel 0 0 count places (by omega) (by omega) (fun j' h => by omega) hfrom (by simp; omega)
  unfold subsequencePosition
  rw [if_neg hne, initS_eq, initS_eq]
  simp only [Nat.add_zero] at this
  rw [this, if_pos (by omega)]
  dsimp only
  rw [show ((count : Int) - 1).toNat = count - 1 by omega]

example : subsequencePosition (· == ·) 40 (⟨.list, [1, 1, 2, 1, 1, 2], 0⟩ : S Nat) (⟨.deque, [1, 2], 5⟩ : S Nat) 2 = .ok (some 4) := by decide

/-- The empty sequence is found at every place, also at the end: there are `size + 1` of them.  The code
    answers the end for every count beyond this. -/
theorem subsequence_position_violated : ∃ (big pat : S Nat) (count : Nat), Occurrences (fun a b => decide (a = b)) big.items pat.items [0, 1] ∧
    1 ≤ count ∧ ([0, 1] : List Nat)[count - 1]? = none ∧ ∀ fuel, subsequencePosition (fun a b => decide (a = b)) fuel big pat count = .ok (some 1) := by
  refine ⟨⟨.vector, [7], 0⟩, ⟨.vector, [], 0⟩, 3, ⟨by decide, fun i => ?_⟩, by decide, by decide, fun fuel => rfl⟩
  unfold FoundAt
  simp
  omega

/-- For the counts up to `size + 1` it is right. -/
theorem subsequence_position_empty_partial (test : α → β → Bool) (fuel : Nat) (big : S α) (pat : S β) (he : pat.items = []) (count : Nat) (hc : 1 ≤ count)
    (hs : count ≤ big.items.length + 1) {places : List Nat} (hp : Occurrences test big.items pat.items places) :
    subsequencePosition test fuel big pat count = .ok ((places[count - 1]?).map (fun n : Nat => (n : Int))) := by
  have hpl : ∀ (m : Nat) (i : Nat) (places : List Nat), m = big.items.length + 1 - i → i ≤ big.items.length + 1 → From' test big.items pat.items i places → places = List.range' i m := by
    intro m
    induction m with
    | zero =>
      intro i places h hi hf
      cases places with
      | nil => rfl
      | cons x rest =>
        have := (hf.all x).1 (by simp)
        have h1 := this.1.1
        omega
    | succ m ih =>
      intro i places h hi hf
      obtain ⟨rest, hr, hrest⟩ := hf.here ⟨by rw [he]; simp; omega, by rw [he]; simp⟩
      rw [hr, ih (i + 1) rest (by omega) (by omega) hrest]
      rfl
  have := hpl (big.items.length + 1) 0 places rfl (by omega) ⟨hp.ordered, fun x => by rw [hp.all x]; simp⟩
  subst this
  unfold subsequencePosition
  rw [if_pos he, List.getElem?_range' (by omega)]
  by_cases hb : (count : Int) > big.items.length
  · rw [if_pos hb]
    simp; omega
  · rw [if_neg hb]
    simp; omega

example : subsequencePosition (· == ·) 40 (⟨.list, [1, 1, 2], 0⟩ : S Nat) (⟨.deque, [], 5⟩ : S Nat) 2 = .ok (some 1) := by decide

/-! ### = -/

/-- Two lists compared. -/
def equalB (eq : α → β → Bool) : List α → List β → Bool
  | [], m => m.isEmpty
  | _ :: _, [] => false
  | a :: l, b :: m => if eq a b then equalB eq l m else false

theorem equalB_iff (eq : α → β → Bool) : ∀ (l : List α) (m : List β), equalB eq l m = true ↔ Same eq l m
  | [], [] => by simp [equalB, Same]
  | [], b :: m => by simp [equalB, Same]
  | a :: l, [] => by simp [equalB, Same]
  | a :: l, b :: m => by
    rw [equalB]
    have ih := equalB_iff eq l m
    constructor
    · intro h
      by_cases he : eq a b = true
      · rw [if_pos he] at h
        obtain ⟨h1, h2⟩ := ih.1 h
        refine ⟨by simp [h1], fun i x y hx hy => ?_⟩
        cases i with
        | zero => simp at hx hy; subst hx; subst hy; exact he
        | succ i => exact h2 i x y (by simpa using hx) (by simpa using hy)
      · rw [if_neg he] at h; cases h
    · rintro ⟨h1, h2⟩
      rw [if_pos (h2 0 a b rfl rfl)]
      exact ih.2 ⟨by simpa using h1, fun i x y hx hy => h2 (i + 1) x y (by simpa using hx) (by simpa using hy)⟩

theorem equalLoop_eq (eq : α → β → Bool) (s : S α) (t : S β) : ∀ (k i : Nat), i ≤ s.items.length → i ≤ t.items.length → s.items.length < k + i →
    equalLoop eq s t k (stateAt s i) (stateAt t i) = .ok (equalB eq (s.items.drop i) (t.items.drop i))
  | 0, i, h1, _, h => by omega
  | k + 1, i, h1, h2, h => by
    rw [equalLoop, finishedS_stateAt s h1, finishedS_stateAt t h2, curS_stateAt, curS_stateAt]
    by_cases hs : i = s.items.length
    · rw [if_pos (by simpa using hs), List.drop_of_length_le (l := s.items) (by omega), equalB]
      congr 1
      by_cases ht : i = t.items.length
      · rw [List.drop_of_length_le (l := t.items) (by omega)]; simp [ht]
      · have : (t.items.drop i).isEmpty = false := by rw [List.drop_eq_getElem_cons (l := t.items) (by omega)]; rfl
        rw [this]; simpa using ht
    · rw [if_neg (by simpa using hs), List.drop_eq_getElem_cons (l := s.items) (by omega)]
      by_cases ht : i = t.items.length
      · rw [if_pos (by simpa using ht), List.drop_of_length_le (l := t.items) (by omega), equalB]
      · rw [if_neg (by simpa using ht), List.drop_eq_getElem_cons (l := t.items) (by omega), equalB, List.getElem?_eq_getElem (by omega),
          List.getElem?_eq_getElem (by omega)]
        dsimp only
        by_cases he : eq s.items[i] t.items[i] = true
        · rw [if_pos he, if_pos he, nextS_stateAt s (by omega), nextS_stateAt t (by omega)]
          exact equalLoop_eq eq s t k (i + 1) (by omega) (by omega) (by omega)
        · rw [if_neg he, if_neg he]

/-- Two sequences of any kinds are equal exactly if they have equal elements in the same places. -/
theorem equal_sequences (eq : α → β → Bool) (s : S α) (t : S β) {fuel : Nat} (hf : s.items.length < fuel) :
    ∃ b, equalSeqs eq fuel s t = .ok b ∧ (b = true ↔ Same eq s.items t.items) := by
  refine ⟨_, equalLoop_eq eq s t fuel 0 (by omega) (by omega) (by omega), ?_⟩
  exact equalB_iff eq s.items t.items

example : equalSeqs (· == ·) 5 (⟨.list, [1, 2, 3], 0⟩ : S Nat) (⟨.deque, [1, 2, 3], 4⟩ : S Nat) = .ok true ∧
    equalSeqs (· == ·) 5 (⟨.list, [1, 2, 3], 0⟩ : S Nat) (⟨.vector, [1, 2], 0⟩ : S Nat) = .ok false := by decide

theorem equal_arrays (eq : α → β → Bool) (l : List α) (m : List β) : equalArrays eq l m = true ↔ Same eq l m := by
  have h : ∀ (l : List α) (m : List β), l.length = m.length → equalZip eq l m = equalB eq l m := by
    intro l
    induction l with
    | nil => intro m hm; cases m with
      | nil => rfl
      | cons => simp at hm
    | cons a l ih => intro m hm; cases m with
      | nil => simp at hm
      | cons b m => rw [equalZip, equalB, ih m (by simpa using hm)]
  unfold equalArrays
  by_cases hl : l.length = m.length
  · rw [if_neg (by simpa using hl), h l m hl]
    exact equalB_iff eq l m
  · rw [if_pos hl]
    simp only [Bool.false_eq_true, false_iff]
    exact fun hs => hl hs.1

example : equalArrays (· == ·) [1, 2] [1, 2] = true ∧ equalArrays (· == ·) [1, 2] [1, 3] = false := by decide

theorem assoc_mem {κ : Type} [DecidableEq κ] {t : Assoc κ α} {k : κ} : k ∈ t.map (·.1) ↔ ∃ a, assoc t k = some a := by
  unfold assoc
  induction t with
  | nil => simp
  | cons p t ih =>
    rw [List.map_cons, List.mem_cons, List.find?_cons]
    by_cases hp : p.1 = k
    · simp [hp]
    · have hp' : ¬ k = p.1 := fun h => hp h.symm
      simp only [hp, hp', decide_false, false_or]
      exact ih

theorem keys_le {κ : Type} [DecidableEq κ] {A B : List κ} (hA : A.Nodup) (hsub : A ⊆ B) (hlen : B.length ≤ A.length) : B ⊆ A := by
  have := (List.subperm_of_subset hA hsub).perm_of_length_le hlen
  exact fun x hx => this.mem_iff.mpr hx

theorem equalAll_iff {κ : Type} [DecidableEq κ] (eq : α → β → Bool) (t : Assoc κ β) : ∀ s : Assoc κ α,
    equalAll eq t s = true ↔ ∀ p ∈ s, ∃ b, assoc t p.1 = some b ∧ eq p.2 b = true
  | [] => by simp [equalAll]
  | (k, a) :: s => by
    rw [equalAll]
    have ih := equalAll_iff eq t s
    cases hk : assoc t k with
    | none => simp [hk]
    | some b =>
      dsimp only
      by_cases he : eq a b = true
      · rw [if_pos he, ih]
        simp [hk, he]
      · rw [if_neg he]
        simp [hk, he]

theorem assoc_of_mem {κ : Type} [DecidableEq κ] : ∀ {t : Assoc κ α}, Distinct t → ∀ p ∈ t, assoc t p.1 = some p.2
  | [], _, p, h => by simp at h
  | q :: t, hd, p, h => by
    unfold Distinct at hd
    rw [List.map_cons, List.nodup_cons] at hd
    unfold assoc
    rw [List.find?_cons]
    rcases List.mem_cons.mp h with rfl | h
    · simp
    · have : ¬ q.1 = p.1 := fun he => hd.1 (by rw [he]; exact List.mem_map_of_mem h)
      simp only [this, decide_false]
      exact assoc_of_mem hd.2 p h

/-- Two tables with the same key test are equal exactly if they have the same keys with equal elements. -/
theorem equal_tables {κ : Type} [DecidableEq κ] (eq : α → β → Bool) {s : Assoc κ α} {t : Assoc κ β} (hs : Distinct s) (ht : Distinct t) :
    equalTables eq s t = true ↔ SameKeys eq (assoc s) (assoc t) := by
  unfold equalTables
  constructor
  · intro h
    by_cases hl : s.length = t.length
    · rw [if_neg (by simpa using hl), equalAll_iff] at h
      have hsub : s.map (·.1) ⊆ t.map (·.1) := by
        intro k hk
        obtain ⟨p, hp, rfl⟩ := List.mem_map.mp hk
        obtain ⟨b, hb, _⟩ := h p hp
        exact assoc_mem.2 ⟨b, hb⟩
      have hsup := keys_le hs hsub (by simp; omega)
      intro k
      cases hk : assoc s k with
      | none =>
        cases hk' : assoc t k with
        | none => trivial
        | some b =>
          obtain ⟨a, ha⟩ := assoc_mem.1 (hsup (assoc_mem.2 ⟨b, hk'⟩))
          rw [hk] at ha; cases ha
      | some a =>
        obtain ⟨p, hp, hpk⟩ := List.mem_map.mp (assoc_mem.2 ⟨a, hk⟩)
        obtain ⟨b, hb, he⟩ := h p hp
        have := assoc_of_mem hs p hp
        rw [hpk] at this hb
        rw [hk] at this
        cases this
        rw [hb]
        exact he
    · rw [if_pos hl] at h; cases h
  · intro h
    have hsub : s.map (·.1) ⊆ t.map (·.1) := by
      intro k hk
      obtain ⟨a, ha⟩ := assoc_mem.1 hk
      have := h k
      rw [ha] at this
      cases hk' : assoc t k with
      | none => rw [hk'] at this; exact this.elim
      | some b => exact assoc_mem.2 ⟨b, hk'⟩
    have hsub' : t.map (·.1) ⊆ s.map (·.1) := by
      intro k hk
      obtain ⟨b, hb⟩ := assoc_mem.1 hk
      have := h k
      rw [hb] at this
      cases hk' : assoc s k with
      | none => rw [hk'] at this; exact this.elim
      | some a => exact assoc_mem.2 ⟨a, hk'⟩
    have h1 := (List.subperm_of_subset hs hsub).length_le
    have h2 := (List.subperm_of_subset ht hsub').length_le
    simp only [List.length_map] at h1 h2
    rw [if_neg (by simp; omega), equalAll_iff]
    intro p hp
    have := h p.1
    rw [assoc_of_mem hs p hp] at this
    cases hk' : assoc t p.1 with
    | none => rw [hk'] at this; exact this.elim
    | some b => rw [hk'] at this; exact ⟨b, rfl, this⟩

example : Distinct [(1, 'a'), (2, 'b')] ∧ equalTables (· == ·) [(1, 'a'), (2, 'b')] [(2, 'b'), (1, 'a')] = true ∧ equalTables (· == ·) [(1, 'a'), (2, 'b')] [(2, 'b'), (3, 'a')] = false := by
  unfold Distinct; decide

theorem equalKeys_iff (eq : α → β → Bool) (t : Assoc Nat β) : ∀ (l : List α) (key : Nat),
    ((equalKeys eq t l key).1 = true → (equalKeys eq t l key).2 = key + l.length) ∧
    ((equalKeys eq t l key).1 = true ↔ ∀ i a, l[i]? = some a → ∃ b, assoc t (key + i) = some b ∧ eq a b = true)
  | [], key => by simp [equalKeys]
  | a :: l, key => by
    rw [equalKeys]
    have ih := equalKeys_iff eq t l (key + 1)
    have hsplit : (∀ i x, (a :: l)[i]? = some x → ∃ b, assoc t (key + i) = some b ∧ eq x b = true) ↔
        (∃ b, assoc t key = some b ∧ eq a b = true) ∧ ∀ i x, l[i]? = some x → ∃ b, assoc t (key + 1 + i) = some b ∧ eq x b = true := by
      constructor
      · intro h
        refine ⟨by simpa using h 0 a rfl, fun i x hx => ?_⟩
        have := h (i + 1) x (by simpa using hx)
        rwa [show key + (i + 1) = key + 1 + i by omega] at this
      · rintro ⟨h1, h2⟩ i x hx
        cases i with
        | zero => simp at hx; subst hx; simpa using h1
        | succ i =>
          have := h2 i x (by simpa using hx)
          rwa [show key + 1 + i = key + (i + 1) by omega] at this
    rw [hsplit]
    cases hk : assoc t key with
    | none => simp
    | some b =>
      dsimp only
      by_cases he : eq a b = true
      · rw [if_pos he]
        refine ⟨fun h => by rw [ih.1 h, List.length_cons]; omega, ?_⟩
        rw [ih.2]
        simp [he]
      · rw [if_neg he]
        simp [he]

/-- A sequence and a table are equal exactly if the table has the indices of the sequence as its keys, with
    equal elements. -/
theorem equal_sequence_table (eq : α → β → Bool) (l : List α) {t : Assoc Nat β} (ht : Distinct t) :
    equalSeqTable eq l t = true ↔ SameKeys eq (fun k : Nat => l[k]?) (assoc t) := by
  unfold equalSeqTable
  rw [Bool.and_eq_true, decide_eq_true_eq]
  have hk := equalKeys_iff eq t l 0
  simp only [Nat.zero_add] at hk
  have hrange : (List.range l.length) ⊆ t.map (·.1) ↔ ∀ i < l.length, ∃ b, assoc t i = some b := by
    constructor
    · intro h i hi
      exact assoc_mem.1 (h (List.mem_range.mpr hi))
    · intro h i hi
      exact assoc_mem.2 (h i (List.mem_range.mp hi))
  constructor
  · rintro ⟨h1, h2⟩
    rw [hk.1 h1] at h2
    have hall := hk.2.1 h1
    have hsub : (List.range l.length) ⊆ t.map (·.1) := hrange.2 (fun i hi => by
      obtain ⟨b, hb, _⟩ := hall i l[i] (List.getElem?_eq_getElem hi)
      exact ⟨b, hb⟩)
    have hsup := keys_le List.nodup_range hsub (by simp; omega)
    intro k
    dsimp only
    cases hl : l[k]? with
    | none =>
      cases hk' : assoc t k with
      | none => trivial
      | some b =>
        have := List.mem_range.mp (hsup (assoc_mem.2 ⟨b, hk'⟩))
        rw [List.getElem?_eq_none_iff] at hl
        omega
    | some a =>
      obtain ⟨b, hb, he⟩ := hall k a hl
      rw [hb]
      exact he
  · intro h
    have hall : ∀ i a, l[i]? = some a → ∃ b, assoc t i = some b ∧ eq a b = true := by
      intro i a ha
      have := h i
      dsimp only at this
      rw [ha] at this
      cases hk' : assoc t i with
      | none => rw [hk'] at this; exact this.elim
      | some b => rw [hk'] at this; exact ⟨b, rfl, this⟩
    have h1 := hk.2.2 hall
    refine ⟨h1, ?_⟩
    rw [hk.1 h1]
    have hsub : (List.range l.length) ⊆ t.map (·.1) := hrange.2 (fun i hi => by
      obtain ⟨b, hb, _⟩ := hall i l[i] (List.getElem?_eq_getElem hi)
      exact ⟨b, hb⟩)
    have hsub' : t.map (·.1) ⊆ List.range l.length := by
      intro k hk'
      obtain ⟨b, hb⟩ := assoc_mem.1 hk'
      have := h k
      dsimp only at this
      rw [hb] at this
      cases hl : l[k]? with
      | none => rw [hl] at this; exact this.elim
      | some a => exact List.mem_range.mpr (List.getElem?_eq_some_iff.mp hl).1
    have e1 := (List.subperm_of_subset List.nodup_range hsub).length_le
    have e2 := (List.subperm_of_subset ht hsub').length_le
    simp at e1 e2
    omega

example : Distinct [(1, 'b'), (0, 'a')] ∧ equalSeqTable (· == ·) ['a', 'b'] [(1, 'b'), (0, 'a')] = true := by unfold Distinct; decide

/-! ### Functions that choose elements -/

theorem removeLoop_eq (test : α → Bool) : ∀ (l : List α) (count : Option Int) (new : List α) (changed : Bool),
    (removeLoop test l count new changed).1 = (removed test (count.map Int.toNat) l).reverse ++ new ∧
    ((removeLoop test l count new changed).2 = false → removed test (count.map Int.toNat) l = l ∧ changed = false)
  | [], count, new, changed => by cases count <;> simp [removeLoop, removed]
  | a :: l, none, new, changed => by
    rw [removeLoop, Option.map_none, removed]
    by_cases h : test a = true
    · rw [if_pos h, if_pos h]
      obtain ⟨h1, h2⟩ := removeLoop_eq test l none new true
      exact ⟨h1, fun h => by simpa using (h2 h).2⟩
    · rw [if_neg h, if_neg h]
      obtain ⟨h1, h2⟩ := removeLoop_eq test l none (a :: new) changed
      rw [Option.map_none] at h1 h2
      refine ⟨by rw [h1]; simp, fun h => ⟨by rw [(h2 h).1], (h2 h).2⟩⟩
  | a :: l, some count, new, changed => by
    rw [removeLoop, Option.map_some]
    by_cases hc : count > 0
    · obtain ⟨n, hn⟩ : ∃ n : Nat, count.toNat = n + 1 := ⟨count.toNat - 1, by omega⟩
      rw [hn, removed]
      by_cases h : test a = true
      · rw [if_pos ⟨hc, h⟩, if_pos h]
        obtain ⟨h1, h2⟩ := removeLoop_eq test l (some (count - 1)) new true
        rw [Option.map_some, show (count - 1).toNat = n by omega] at h1 h2
        exact ⟨h1, fun h => by simpa using (h2 h).2⟩
      · rw [if_neg (fun hh => h hh.2), if_neg h]
        obtain ⟨h1, h2⟩ := removeLoop_eq test l (some count) (a :: new) changed
        rw [Option.map_some, hn] at h1 h2
        refine ⟨by rw [h1]; simp, fun h => ⟨by rw [(h2 h).1], (h2 h).2⟩⟩
    · rw [if_neg (fun hh => hc hh.1)]
      obtain ⟨h1, h2⟩ := removeLoop_eq test l (some count) (a :: new) changed
      have h0 : count.toNat = 0 := by omega
      have hl : removed test (some 0) l = l := by cases l <;> rfl
      rw [Option.map_some, h0, hl] at h1 h2
      rw [h0, removed]
      · refine ⟨by rw [h1]; simp, fun h => ⟨rfl, (h2 h).2⟩⟩
      · simp

/-- `remove` removes exactly the elements that match, or the first `count` of them. -/
theorem remove_eq (test : α → Bool) (l : List α) (count : Option Int) : remove test l count = removed test (count.map Int.toNat) l := by
  obtain ⟨h1, h2⟩ := removeLoop_eq test l count [] false
  unfold remove
  dsimp only
  by_cases h : (removeLoop test l count [] false).2 = true
  · rw [if_pos h, h1]; simp
  · rw [if_neg h, (h2 (by simpa using h)).1]

example : remove (· == 1) [1, 2, 1, 3, 1] (some 2) = [2, 3, 1] := by decide

theorem chooseLoop_eq (test : α → Bool) : ∀ (ts : List α) (vs result : List β),
    chooseLoop test ts vs result = (((ts.zip vs).filter (fun p => test p.1)).map (·.2)).reverse ++ result
  | [], vs, result => by simp [chooseLoop]
  | t :: ts, [], result => by simp [chooseLoop]
  | t :: ts, v :: vs, result => by
    rw [chooseLoop, chooseLoop_eq test ts vs, List.zip_cons_cons, List.filter_cons]
    by_cases h : test t = true
    · rw [if_pos h, if_pos h]; simp
    · rw [if_neg h, if_neg h]

/-- `choose-by` returns the values whose tested elements pass. -/
theorem choose_by (test : α → Bool) (ts : List α) (vs : List β) : chooseBy test ts vs = ((ts.zip vs).filter (fun p => test p.1)).map (·.2) := by
  unfold chooseBy
  rw [chooseLoop_eq]
  simp

/-- `choose` returns the elements that pass, in order. -/
theorem choose_eq (test : α → Bool) (l : List α) : choose test l = l.filter test := by
  unfold choose
  rw [choose_by]
  induction l with
  | nil => rfl
  | cons a l ih =>
    rw [List.zip_cons_cons, List.filter_cons, List.filter_cons]
    by_cases h : test a = true
    · rw [if_pos h, if_pos h, List.map_cons, ih]
    · rw [if_neg h, if_neg h, ih]

example : chooseBy (· == 1) [1, 2, 1] ['a', 'b', 'c', 'd'] = ['a', 'c'] ∧ choose (· > 1) [1, 2, 3] = [2, 3] := by decide

theorem member_eq (test : α → β → Bool) (a : α) : ∀ l : List β, member test a l = true ↔ ∃ b ∈ l, test a b = true
  | [] => by simp [member]
  | b :: l => by
    rw [member]
    by_cases h : test a b = true
    · simp [h]
    · simp [h, member_eq test a l]

theorem intersection_loop (test : α → β → Bool) (s2 : List β) : ∀ (s1 result : List α),
    s1.foldl (fun result item => if member test item s2 then item :: result else result) result = (s1.filter (fun a => member test a s2)).reverse ++ result
  | [], result => by simp
  | a :: s1, result => by
    rw [List.foldl_cons, intersection_loop test s2 s1, List.filter_cons]
    by_cases h : member test a s2 = true
    · rw [if_pos h, if_pos h]; simp
    · rw [if_neg h, if_neg h]

/-- `intersection` returns the elements of the first sequence that match one of the second, each as often as it
    is there, in reverse. -/
theorem intersection_eq (test : α → β → Bool) (s1 : List α) (s2 : List β) :
    (intersection test s1 s2).reverse.Sublist s1 ∧
    (∀ a, a ∈ intersection test s1 s2 ↔ a ∈ s1 ∧ ∃ b ∈ s2, test a b = true) ∧
    (∀ a, (∃ b ∈ s2, test a b = true) → ∀ [DecidableEq α], (intersection test s1 s2).count a = s1.count a) := by
  have h : intersection test s1 s2 = (s1.filter (fun a => member test a s2)).reverse := by
    unfold intersection
    rw [intersection_loop]; simp
  rw [h]
  refine ⟨by simp, fun a => ?_, fun a ha _ => ?_⟩
  · rw [List.mem_reverse, List.mem_filter, member_eq]
  · have := (member_eq test a s2).2 ha
    rw [List.count_reverse]
    exact List.count_filter (p := fun a => member test a s2) this

example : intersection (· == ·) [1, 2, 3, 2] [2, 3] = [2, 3, 2] := by decide

theorem union_loop (test : α → β → Bool) (s2 : List β) : ∀ (s1 new : List α),
    s1.foldl (fun new item => if member test item s2 then new else item :: new) new = (s1.filter (fun a => !member test a s2)).reverse ++ new
  | [], new => by simp
  | a :: s1, new => by
    rw [List.foldl_cons, union_loop test s2 s1, List.filter_cons]
    by_cases h : member test a s2 = true
    · rw [if_pos h, if_neg (by simp [h])]
    · rw [if_neg h, if_pos (by simp [h])]; simp

/-- `union` returns the elements of the second sequence, and those of the first that match none of them. -/
theorem union_eq (test : α → α → Bool) (s1 s2 : List α) :
    ∃ extra, union test s1 s2 = extra ++ s2 ∧ extra.reverse.Sublist s1 ∧ ∀ a, a ∈ extra ↔ a ∈ s1 ∧ ∀ b ∈ s2, test a b = false := by
  refine ⟨(s1.filter (fun a => !member test a s2)).reverse, union_loop test s2 s1 s2, by simp, fun a => ?_⟩
  rw [List.mem_reverse, List.mem_filter]
  have := member_eq test a s2
  cases h : member test a s2 with
  | true =>
    obtain ⟨b, hb, ht⟩ := this.1 h
    simp only [Bool.not_true, Bool.false_eq_true, and_false, false_iff, not_and]
    intro _ hall
    rw [hall b hb] at ht
    cases ht
  | false =>
    simp only [Bool.not_false, and_true]
    refine ⟨fun ha => ⟨ha, fun b hb => ?_⟩, fun ha => ha.1⟩
    cases ht : test a b with
    | false => rfl
    | true => rw [this.2 ⟨b, hb, ht⟩] at h; cases h

example : union (· == ·) [1, 2, 4] [2, 3] = [4, 1, 2, 3] := by decide

theorem anyOne_eq (test : α → Bool) : ∀ l : List α, anyOne test l = true ↔ ∃ a ∈ l, test a = true
  | [] => by simp [anyOne]
  | a :: l => by
    rw [anyOne]
    by_cases h : test a = true
    · simp [h]
    · simp [h, anyOne_eq test l]

theorem everyTwo_eq (test : α → β → Bool) : ∀ (l : List α) (m : List β),
    everyTwo test l m = true ↔ ∀ (i : Nat) a b, l[i]? = some a → m[i]? = some b → test a b = true
  | [], m => by simp [everyTwo]
  | a :: l, [] => by simp [everyTwo]
  | a :: l, b :: m => by
    rw [everyTwo]
    have ih := everyTwo_eq test l m
    constructor
    · intro h i x y hx hy
      by_cases ht : test a b = true
      · rw [if_pos ht] at h
        cases i with
        | zero => simp at hx hy; subst hx; subst hy; exact ht
        | succ i => exact ih.1 h i x y (by simpa using hx) (by simpa using hy)
      · rw [if_neg ht] at h; cases h
    · intro h
      rw [if_pos (h 0 a b rfl rfl)]
      exact ih.2 (fun i x y hx hy => h (i + 1) x y (by simpa using hx) (by simpa using hy))

example : anyOne (· > 2) [1, 2, 3] = true ∧ everyTwo (· < ·) [1, 2] [2, 3, 0] = true ∧ everyTwo (· < ·) [1, 4] [2, 3, 0] = false := by decide

theorem dupLoop_eq (test : α → α → Bool) : ∀ (l new : List α) (dup : Bool), new.reverse.Pairwise (fun a b => test a b = false) →
    ∃ kept, (dupLoop test l new dup).1 = kept.reverse ++ new ∧ kept.Sublist l ∧ ((dupLoop test l new dup).2 = false → kept = l ∧ dup = false) ∧
      (new.reverse ++ kept).Pairwise (fun a b => test a b = false) ∧ ∀ x ∈ l, x ∈ kept ∨ ∃ y ∈ new.reverse ++ kept, test y x = true
  | [], new, dup, h => ⟨[], by simp [dupLoop], by simp, by simp [dupLoop], by simpa using h, by simp⟩
  | a :: l, new, dup, h => by
    rw [dupLoop]
    by_cases ha : anyOne (fun el => test el a) new = true
    · rw [if_pos ha]
      obtain ⟨kept, h1, h2, h3, h4, h5⟩ := dupLoop_eq test l new true h
      refine ⟨kept, h1, h2.cons a, fun hh => by simpa using (h3 hh).2, h4, fun x hx => ?_⟩
      rcases List.mem_cons.mp hx with rfl | hx
      · obtain ⟨y, hy, ht⟩ := (anyOne_eq _ _).1 ha
        exact Or.inr ⟨y, by simp [hy], ht⟩
      · exact h5 x hx
    · rw [if_neg ha]
      have hno : ∀ y ∈ new, test y a = false := fun y hy => by
        cases ht : test y a with
        | false => rfl
        | true => exact absurd ((anyOne_eq _ _).2 ⟨y, hy, ht⟩) ha
      obtain ⟨kept, h1, h2, h3, h4, h5⟩ := dupLoop_eq test l (a :: new) dup (by
        rw [List.reverse_cons, List.pairwise_append]
        exact ⟨h, by simp, fun y hy z hz => by simp at hy hz; subst hz; exact hno y hy⟩)
      rw [List.reverse_cons, List.append_assoc, List.singleton_append] at h4 h5
      refine ⟨a :: kept, by rw [h1]; simp, h2.cons_cons a, fun hh => ⟨by rw [(h3 hh).1], (h3 hh).2⟩, h4, fun x hx => ?_⟩
      rcases List.mem_cons.mp hx with rfl | hx
      · exact Or.inl (by simp)
      · rcases h5 x hx with h | h
        · exact Or.inl (by simp [h])
        · exact Or.inr h

/-- `remove-duplicates` keeps one of the elements that match each other, the first. -/
theorem remove_duplicates (test : α → α → Bool) (l : List α) : WithoutDuplicates test l (removeDuplicates test l) := by
  obtain ⟨kept, h1, h2, h3, h4, h5⟩ := dupLoop_eq test l [] false (by simp)
  have h : removeDuplicates test l = kept := by
    unfold removeDuplicates
    dsimp only
    by_cases h : (dupLoop test l [] false).2 = true
    · rw [if_pos h, h1]; simp
    · rw [if_neg h, (h3 (by simpa using h)).1]
  rw [h]
  exact ⟨h2, by simpa using h4, by simpa using h5⟩

example : removeDuplicates (· == ·) [1, 2, 1, 3, 2] = [1, 2, 3] := by decide

/-- `add-new` adds the element in front unless there is one that matches. -/
theorem add_new (test : α → α → Bool) (l : List α) (e : α) :
    ((∃ x ∈ l, test x e = true) → addNew test l e = l) ∧ ((∀ x ∈ l, test x e = false) → addNew test l e = e :: l) := by
  unfold addNew
  refine ⟨fun h => by rw [if_pos ((anyOne_eq _ _).2 h)], fun h => ?_⟩
  rw [if_neg]
  intro ha
  obtain ⟨x, hx, ht⟩ := (anyOne_eq _ _).1 ha
  rw [h x hx] at ht
  cases ht

example : addNew (· == ·) [1, 2] 2 = [1, 2] ∧ addNew (· == ·) [1, 2] 3 = [3, 1, 2] := by decide

/-! ### concatenate-as -/

theorem storeFrom_eq : ∀ (l done junk : List α), l.length ≤ junk.length → storeFrom l (done ++ junk) done.length = some (done ++ l ++ junk.drop l.length)
  | [], done, junk, _ => by simp [storeFrom]
  | a :: l, done, [], h => by simp at h
  | a :: l, done, b :: junk, h => by
    rw [storeFrom, if_pos (by simp)]
    have := storeFrom_eq l (done ++ [a]) junk (by simpa using h)
    simp only [List.length_append, List.length_singleton, List.append_assoc, List.singleton_append] at this
    rw [show (done ++ b :: junk).set done.length a = done ++ a :: junk by simp, this]
    simp

theorem storeEach_eq : ∀ (ss : List (List α)) (done junk : List α), ss.flatten.length = junk.length →
    storeEach ss (some (done ++ junk, done.length)) = some (done ++ ss.flatten, (done ++ ss.flatten).length)
  | [], done, junk, h => by
    have : junk = [] := List.length_eq_zero_iff.mp (by simpa using h.symm)
    simp [storeEach, this]
  | s :: ss, done, junk, h => by
    rw [List.flatten_cons, List.length_append] at h
    rw [storeEach, storeFrom_eq s done junk (by omega), Option.map_some]
    have := storeEach_eq ss (done ++ s) (junk.drop s.length) (by rw [List.length_drop]; omega)
    rw [List.length_append (as := done)] at this
    rw [this]
    simp

theorem total_eq : ∀ (rest : List (List α)) (n : Nat), rest.foldl (fun n s => n + s.length) n = n + rest.flatten.length
  | [], n => by simp
  | s :: rest, n => by rw [List.foldl_cons, total_eq rest, List.flatten_cons, List.length_append]; omega

/-- `concatenate-as` returns the elements of all the sequences, in order. -/
theorem concatenate_as (first : List α) (rest : List (List α)) : concatenateAs first rest = some (first ++ rest.flatten) := by
  have hflat : ((first :: rest).filter (fun s => !s.isEmpty)).flatten = first ++ rest.flatten := by
    rw [List.flatten_filter_not_isEmpty, List.flatten_cons]
  have hhead : ((first :: rest).filter (fun s => !s.isEmpty)).head? = (first :: rest).find? (fun s => !s.isEmpty) := List.head?_filter ..
  unfold concatenateAs
  dsimp only
  rw [total_eq]
  rw [← hhead]
  cases hf : (first :: rest).filter (fun s => !s.isEmpty) with
  | nil =>
    rw [hf] at hflat
    simpa using hflat
  | cons s ss =>
    rw [hf] at hflat
    have hs : (!s.isEmpty) = true := (List.mem_filter.mp (hf ▸ List.mem_cons_self : s ∈ (first :: rest).filter (fun s => !s.isEmpty))).2
    rw [List.head?_cons]
    cases s with
    | nil => simp at hs
    | cons x l =>
      dsimp only
      by_cases h1 : ((x :: l) :: ss).length = 1
      · rw [if_pos h1]
        have : ss = [] := List.length_eq_zero_iff.mp (by simpa using h1)
        rw [this] at hflat
        simpa using hflat
      · rw [if_neg h1]
        have := storeEach_eq (first :: rest) [] (List.replicate (first.length + rest.flatten.length) x) (by simp)
        simp only [List.nil_append, List.length_nil] at this
        rw [this]
        simp

example : concatenateAs [1] [[], [2, 3], [4]] = some [1, 2, 3, 4] := by decide

end Verif.Iter
