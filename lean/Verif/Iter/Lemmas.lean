import Verif.Iter.Spec
import Mathlib.Tactic.Push

namespace Verif.Iter

variable {α β : Type}

/-! ### States -/

/-- The state at element `k`. -/
def stateAt (s : S α) (k : Nat) : Nat := initS s + k

theorem initS_eq (s : S α) : initS s = stateAt s 0 := rfl

theorem nextS_stateAt (s : S α) {k : Nat} (h : k < s.items.length) : nextS s (stateAt s k) = stateAt s (k + 1) := by
  unfold nextS stateAt initS
  cases s.kind <;> simp [h] <;> omega

theorem finishedS_stateAt (s : S α) {k : Nat} (h : k ≤ s.items.length) : finishedS s (stateAt s k) (limitS s) = decide (k = s.items.length) := by
  unfold finishedS stateAt limitS initS
  cases s.kind <;> simp <;> omega

theorem curS_stateAt (s : S α) (k : Nat) : curS s (stateAt s k) = s.items[k]? := by
  unfold curS stateAt
  rw [if_neg (by omega), Nat.add_sub_cancel_left]

theorem setS_stateAt (s : S α) {k : Nat} (v : α) (h : k < s.items.length) : setS s (stateAt s k) v = some { s with items := s.items.set k v } := by
  unfold setS stateAt
  rw [Nat.add_sub_cancel_left, if_neg (by omega)]

theorem stateAt_items (s : S α) (l : List α) (k : Nat) : stateAt { s with items := l } k = stateAt s k := rfl

theorem limitS_items (s : S α) (l : List α) (h : l.length = s.items.length) : limitS { s with items := l } = limitS s := by
  unfold limitS initS
  cases hk : s.kind <;> simp [h]

theorem nextS_items (t : S α) (l : List α) {k : Nat} (h : k < l.length) : nextS { t with items := l } (stateAt t k) = stateAt t (k + 1) :=
  nextS_stateAt { t with items := l } h

theorem setS_items (t : S α) (l : List α) {k : Nat} (v : α) (h : k < l.length) :
    setS { t with items := l } (stateAt t k) v = some { t with items := l.set k v } :=
  setS_stateAt { t with items := l } v h

theorem curS_items (t : S α) (l : List α) (k : Nat) : curS { t with items := l } (stateAt t k) = l[k]? :=
  curS_stateAt { t with items := l } k

theorem skipS_stateAt (s : S α) : ∀ (n k : Nat), k + n ≤ s.items.length → skipS s n (stateAt s k) = stateAt s (k + n)
  | 0, k, _ => rfl
  | n + 1, k, h => by
    rw [skipS, nextS_stateAt s (by omega), skipS_stateAt s n (k + 1) (by omega)]
    congr 1; omega

/-! ### Storing -/

theorem splice_set {l w : List α} {i : Nat} {a : α} (h : i + w.length < l.length) :
    (splice l i (i + w.length) w).set (i + w.length) a = splice l i (i + (w ++ [a]).length) (w ++ [a]) := by
  unfold splice
  have h1 : (l.take i ++ w).length = i + w.length := by simp; omega
  rw [List.set_append_right _ _ (by omega), h1, Nat.sub_self]
  have h2 : l.drop (i + w.length) = l[i + w.length] :: l.drop (i + w.length + 1) := List.drop_eq_getElem_cons h
  rw [h2]
  simp [List.append_assoc, Nat.add_assoc]

theorem splice_length {l w : List α} {i j : Nat} (h1 : i ≤ j) (h2 : j ≤ l.length) : (splice l i j w).length = l.length - (j - i) + w.length := by
  unfold splice
  simp; omega

theorem splice_nil {l : List α} {i : Nat} : splice l i i [] = l := by
  unfold splice; simp

/-- Storing the elements of `rest` after those of `w`. -/
theorem storeAll_eq (t : S α) (i : Nat) : ∀ (rest w : List α), i + w.length + rest.length ≤ t.items.length →
    storeAll rest { t with items := splice t.items i (i + w.length) w } (stateAt t (i + w.length)) =
      .ok ({ t with items := splice t.items i (i + w.length + rest.length) (w ++ rest) }, stateAt t (i + w.length + rest.length))
  | [], w, _ => by simp [storeAll]
  | a :: rest, w, h => by
    simp only [List.length_cons] at h
    have hlen : (splice t.items i (i + w.length) w).length = t.items.length := by
      rw [splice_length (by omega) (by omega)]; omega
    have hset := setS_items t (splice t.items i (i + w.length) w) (k := i + w.length) a (by omega)
    rw [storeAll, hset]
    dsimp only
    rw [splice_set (by omega)]
    have hnext := nextS_items t (splice t.items i (i + (w ++ [a]).length) (w ++ [a])) (k := i + w.length) (by rw [splice_length (by omega) (by simp; omega)]; simp; omega)
    rw [hnext]
    have ih := storeAll_eq t i rest (w ++ [a]) (by simp; omega)
    rw [show i + (w ++ [a]).length = i + w.length + 1 by simp; omega] at ih ⊢
    rw [ih]
    simp [Nat.add_assoc, Nat.add_comm 1]

theorem storeAll_at (t : S α) (i : Nat) (l : List α) (h : i + l.length ≤ t.items.length) :
    storeAll l t (stateAt t i) = .ok ({ t with items := splice t.items i (i + l.length) l }, stateAt t (i + l.length)) := by
  have := storeAll_eq t i l [] (by simpa using h)
  simpa [splice_nil] using this

/-- Copying is storing. -/
theorem copyN_eq (src : S α) : ∀ (n : Nat) (t : S α) (st k : Nat), k + n ≤ src.items.length →
    copyN src n t st (stateAt src k) =
      (match storeAll ((src.items.drop k).take n) t st with
       | .ok (t', st') => .ok (t', st', stateAt src (k + n))
       | .range => .range | .outside => .outside | .typeError => .typeError | .loop => .loop)
  | 0, t, st, k, _ => by simp [copyN, storeAll]
  | n + 1, t, st, k, h => by
    rw [copyN, curS_stateAt, List.getElem?_eq_getElem (by omega), List.drop_eq_getElem_cons (by omega), List.take_succ_cons]
    dsimp only
    rw [storeAll]
    cases hset : setS t st src.items[k] with
    | none => rfl
    | some t' =>
      dsimp only
      rw [nextS_stateAt src (by omega), copyN_eq src n t' (nextS t' st) (k + 1) (by omega)]
      rw [show k + 1 + n = k + (n + 1) by omega]

theorem checkBounds_ok {n : Nat} {start : Int} {last : Option Int} {i j : Nat} (h : Bounds n start last i j) : checkBounds n start last = some (j : Int) := by
  obtain ⟨h1, h2, h3, h4⟩ := h
  unfold checkBounds
  dsimp only
  rw [h2, if_neg (by omega), if_neg (by omega), if_neg (by omega)]

theorem checkBounds_bad {n : Nat} {start : Int} {last : Option Int} (h : ∀ i j, ¬ Bounds n start last i j) : checkBounds n start last = none := by
  unfold checkBounds
  dsimp only
  by_cases h1 : start < 0
  · rw [if_pos h1]
  · rw [if_neg h1]
    by_cases h2 : (n : Int) < last.getD n
    · rw [if_pos h2]
    · rw [if_neg h2]
      by_cases h3 : last.getD n < start
      · rw [if_pos h3]
      · exact absurd ⟨by omega, by omega, by omega, by omega⟩ (h start.toNat (last.getD (n : Int)).toNat)

/-! ### fill! -/

theorem fillAll_eq (t : S α) (v : α) (i : Nat) : ∀ (k m : Nat), i + m ≤ t.items.length → t.items.length < k + (i + m) →
    fillAll v (limitS t) k { t with items := splice t.items i (i + m) (List.replicate m v) } (stateAt t (i + m)) =
      .ok { t with items := splice t.items i t.items.length (List.replicate (t.items.length - i) v) }
  | 0, m, h1, h2 => by omega
  | k + 1, m, h1, h2 => by
    have hlen : (splice t.items i (i + m) (List.replicate m v)).length = t.items.length := by
      rw [splice_length (by omega) (by omega)]; simp; omega
    have hfin := finishedS_stateAt { t with items := splice t.items i (i + m) (List.replicate m v) } (k := i + m) (by dsimp only; omega)
    rw [limitS_items _ _ hlen, stateAt_items] at hfin
    rw [fillAll, hfin]
    dsimp only
    rw [hlen]
    by_cases he : i + m = t.items.length
    · rw [if_pos (by simpa using he)]
      rw [he, show m = t.items.length - i by omega]
    · rw [if_neg (by simpa using he)]
      have hset := setS_items t (splice t.items i (i + m) (List.replicate m v)) (k := i + m) v (by omega)
      rw [hset]
      dsimp only
      have hs := splice_set (l := t.items) (w := List.replicate m v) (i := i) (a := v) (by simp; omega)
      simp only [List.length_replicate, List.length_append, List.length_cons, List.length_nil] at hs
      rw [hs, ← List.replicate_succ']
      have hnext := nextS_items t (splice t.items i (i + (m + 1)) (List.replicate (m + 1) v)) (k := i + m) (by rw [splice_length (by omega) (by omega)]; simp; omega)
      rw [hnext]
      have := fillAll_eq t v i k (m + 1) (by omega) (by omega)
      rw [show i + (m + 1) = i + m + 1 by omega] at this ⊢
      exact this

theorem fillTo_eq (t : S α) (v : α) (i j : Nat) : ∀ (k m : Nat), i + m ≤ t.items.length → i + m ≤ j → t.items.length < k + (i + m) →
    fillTo v j (limitS t) k { t with items := splice t.items i (i + m) (List.replicate m v) } (stateAt t (i + m)) ((i + m : Nat) : Int) =
      .ok ({ t with items := splice t.items i (min j t.items.length) (List.replicate (min j t.items.length - i) v) }, ((min j t.items.length : Nat) : Int))
  | 0, m, h1, _, h2 => by omega
  | k + 1, m, h1, hj, h2 => by
    have hlen : (splice t.items i (i + m) (List.replicate m v)).length = t.items.length := by
      rw [splice_length (by omega) (by omega)]; simp; omega
    have hfin := finishedS_stateAt { t with items := splice t.items i (i + m) (List.replicate m v) } (k := i + m) (by dsimp only; omega)
    rw [limitS_items _ _ hlen, stateAt_items] at hfin
    rw [fillTo, hfin]
    dsimp only
    rw [hlen]
    by_cases he : i + m = j ∨ i + m = t.items.length
    · rw [if_pos (by simp; omega)]
      rw [show min j t.items.length = i + m by omega, Nat.add_sub_cancel_left]
    · rw [if_neg (by simp; omega)]
      have hset := setS_items t (splice t.items i (i + m) (List.replicate m v)) (k := i + m) v (by omega)
      rw [hset]
      dsimp only
      have hs := splice_set (l := t.items) (w := List.replicate m v) (i := i) (a := v) (by simp; omega)
      simp only [List.length_replicate, List.length_append, List.length_cons, List.length_nil] at hs
      rw [hs, ← List.replicate_succ']
      have hnext := nextS_items t (splice t.items i (i + (m + 1)) (List.replicate (m + 1) v)) (k := i + m) (by rw [splice_length (by omega) (by omega)]; simp; omega)
      rw [hnext]
      have := fillTo_eq t v i j k (m + 1) (by omega) (by omega) (by omega)
      rw [show i + (m + 1) = i + m + 1 by omega] at this ⊢
      rw [show ((i + m : Nat) : Int) + 1 = ((i + m + 1 : Nat) : Int) by omega]
      exact this

theorem fillSkip_eq (t : S α) (start : Int) : ∀ (k i : Nat), i ≤ t.items.length → (start < 0 ∨ (i : Int) ≤ start) → t.items.length < k + i →
    fillSkip t start (limitS t) k (stateAt t i) i =
      if 0 ≤ start ∧ start ≤ t.items.length then .ok (stateAt t start.toNat, start) else .ok (stateAt t t.items.length, (t.items.length : Int))
  | 0, i, h1, _, h2 => by omega
  | k + 1, i, h1, hs, h2 => by
    rw [fillSkip, finishedS_stateAt t h1]
    by_cases he : start = i
    · rw [if_pos (Or.inl he), if_pos (by omega), he]
      simp
    · by_cases hf : i = t.items.length
      · rw [if_pos (Or.inr (by simpa using hf)), if_neg (by omega), hf]
      · rw [if_neg (by simp; omega), nextS_stateAt t (by omega), show (i : Int) + 1 = ((i + 1 : Nat) : Int) by omega]
        exact fillSkip_eq t start k (i + 1) (by omega) (by omega) (by omega)

/-! ### replace-elements! -/

theorem replaceLoop_eq (t : S α) (pred : α → Bool) (new : α → α) : ∀ (k : Nat) (pre rest : List α) (c : Option Nat), pre.length + rest.length = t.items.length →
    rest.length < k →
    replaceLoop pred new (limitS t) k { t with items := pre ++ rest } (stateAt t pre.length) (c.map (fun n : Nat => (n : Int))) =
      .ok { t with items := pre ++ replaced pred new c rest }
  | 0, _, _, _, _, h => by omega
  | k + 1, pre, rest, c, h, hk => by
    have hfin := finishedS_stateAt { t with items := pre ++ rest } (k := pre.length) (by simp)
    rw [limitS_items _ _ (by simp; omega), stateAt_items] at hfin
    rw [replaceLoop, hfin]
    cases rest with
    | nil =>
      rw [if_pos (Or.inr (by simp))]
      cases c with
      | none => rfl
      | some n => cases n <;> rfl
    | cons a rest =>
      simp only [List.length_cons] at h hk
      by_cases hc : c = some 0
      · subst hc
        rw [if_pos (Or.inl (by rfl))]
        rfl
      · rw [if_neg (by
          cases c with
          | none => simp
          | some n => simp at hc ⊢; omega)]
        have hcur := curS_items t (pre ++ a :: rest) pre.length
        rw [hcur]
        rw [List.getElem?_append_right (Nat.le_refl _), Nat.sub_self]
        simp only [List.getElem?_cons_zero]
        by_cases hp : pred a = true
        · rw [if_pos hp]
          have hset := setS_items t (pre ++ a :: rest) (k := pre.length) (new a) (by simp)
          rw [hset]
          dsimp only
          rw [List.set_append_right _ _ (Nat.le_refl _), Nat.sub_self, List.set_cons_zero]
          have hnext := nextS_items t (pre ++ new a :: rest) (k := pre.length) (by simp)
          rw [hnext]
          have ih := fun c' => replaceLoop_eq t pred new k (pre ++ [new a]) rest c' (by simp; omega) (by omega)
          simp only [List.append_assoc, List.cons_append, List.nil_append, List.length_append, List.length_cons, List.length_nil] at ih
          cases c with
          | none =>
            have := ih none
            simp only [replaced, if_pos hp]
            exact this
          | some n =>
            cases n with
            | zero => exact absurd rfl hc
            | succ n =>
              have := ih (some n)
              simp only [replaced, if_pos hp]
              rw [← this]
              simp only [Option.map_some]
              rw [show ((n + 1 : Nat) : Int) - 1 = (n : Int) by omega, show pre.length + (0 + 1) = pre.length + 1 by omega]
        · rw [if_neg hp]
          have hnext := nextS_items t (pre ++ a :: rest) (k := pre.length) (by simp)
          rw [hnext]
          have ih := replaceLoop_eq t pred new k (pre ++ [a]) rest c (by simp; omega) (by omega)
          simp only [List.append_assoc, List.cons_append, List.nil_append, List.length_append, List.length_cons, List.length_nil] at ih
          rw [show pre.length + (0 + 1) = pre.length + 1 by omega] at ih
          rw [ih]
          cases c with
          | none => simp only [replaced, if_neg hp]
          | some n =>
            cases n with
            | zero => exact absurd rfl hc
            | succ n => simp only [replaced, if_neg hp]

end Verif.Iter
