import Verif.JamBind.Model

/-!
# Lemmas on the status of targets
-/

namespace Verif.JamBind

theorem table_length (p : Project) : ∀ n, (table p n).length = n
  | 0 => rfl
  | n + 1 => by simp [table, table_length p n]

theorem table_get (p : Project) : ∀ {n j : Nat}, j < n → (table p n)[j]? = some (result p j)
  | 0, j, h => by omega
  | n + 1, j, h => by
    rw [table]
    by_cases hj : j = n
    · subst hj
      rw [List.getElem?_append_right (by rw [table_length]; omega), table_length, Nat.sub_self]
      rfl
    · rw [List.getElem?_append_left (by rw [table_length]; omega)]
      exact table_get p (by omega)

/-- The numbers are as they should be. -/
def Ordered (p : Project) : Prop := ∀ i, ∀ d ∈ (p.target i).deps, d < i

theorem worst_congr (p : Project) (t : Target) {f g : Nat → Result} : ∀ (l : List Nat) (a : Nat × Nat × Nat), (∀ d ∈ l, f d = g d) →
    l.foldl (fun a d => worst t (p.target d).check (f d) a) a = l.foldl (fun a d => worst t (p.target d).check (g d) a) a
  | [], _, _ => rfl
  | d :: l, a, h => by
    rw [List.foldl_cons, List.foldl_cons, h d (by simp)]
    exact worst_congr p t l _ fun e he => h e (by simp [he])

theorem result_eq {p : Project} (h : Ordered p) (i : Nat) : result p i = bindWith p (result p) i := by
  unfold result bindWith worstAll
  simp only
  rw [worst_congr p (p.target i) (f := fun j => ((table p i)[j]?).getD ⟨0, none, 0⟩) (g := result p) _ _ fun d hd => by
    rw [table_get p (h i d hd)]
    rfl]
  rfl

/-- The loop only makes the values larger, and no less than those of any dependency. -/
theorem fold_le {p : Project} {t : Target} {res : Nat → Result} (hl : t.leafOnly = false) : ∀ (l : List Nat) (a : Nat × Nat × Nat),
    let w := l.foldl (fun a d => worst t (p.target d).check (res d) a) a
    a.1 ≤ w.1 ∧ a.2.2 ≤ w.2.2 ∧ ∀ d ∈ l, (res d).status ≤ w.2.2 ∧
      ((p.target d).check = true → ∀ m, (res d).date = some m → m ≤ w.1)
  | [], a => by simp
  | d :: l, a => by
    have ih := fold_le (p := p) (res := res) hl l (worst t (p.target d).check (res d) a)
    simp only [List.foldl_cons] at ih ⊢
    obtain ⟨h1, h2, h3⟩ := ih
    have e1 : a.1 ≤ (worst t (p.target d).check (res d) a).1 := by
      unfold worst later
      simp only [hl, Bool.false_eq_true, if_false]
      split
      · split
        · exact Nat.le_refl _
        · exact Nat.le_max_left _ _
      · exact Nat.le_refl _
    have e2 : (worst t (p.target d).check (res d) a).2.2 = max a.2.2 (res d).status := by
      unfold worst
      simp [hl]
    refine ⟨Nat.le_trans e1 h1, by rw [e2] at h2; omega, fun c hc => ?_⟩
    rcases List.mem_cons.1 hc with rfl | hc
    · refine ⟨by rw [e2] at h2; omega, fun hk m hm => Nat.le_trans ?_ h1⟩
      unfold worst later
      simp only [hl, Bool.false_eq_true, if_false, hk, if_true, hm]
      exact Nat.le_max_right _ _
    · exact h3 c hc

/-- And no more than they must be. -/
theorem fold_ge {p : Project} {t : Target} {res : Nat → Result} {B S : Nat} (hl : t.leafOnly = false) :
    ∀ (l : List Nat) (a : Nat × Nat × Nat), a.1 ≤ B → a.2.2 ≤ S →
    (∀ d ∈ l, (res d).status ≤ S ∧ ((p.target d).check = true → ∀ m, (res d).date = some m → m ≤ B)) →
    (l.foldl (fun a d => worst t (p.target d).check (res d) a) a).1 ≤ B ∧
      (l.foldl (fun a d => worst t (p.target d).check (res d) a) a).2.2 ≤ S
  | [], a, h1, h2, _ => ⟨h1, h2⟩
  | d :: l, a, h1, h2, h => by
    rw [List.foldl_cons]
    obtain ⟨g1, g2⟩ := h d (by simp)
    refine fold_ge hl l _ ?_ ?_ fun e he => h e (by simp [he])
    · unfold worst later
      simp only [hl, Bool.false_eq_true, if_false]
      split
      · rename_i hk
        split
        · exact h1
        · rename_i m hm
          exact Nat.max_le.2 ⟨h1, g2 hk m hm⟩
      · exact h1
    · unfold worst
      simp only [hl, Bool.false_eq_true, if_false]
      exact Nat.max_le.2 ⟨h2, g1⟩

/-- The values come from some dependency. -/
def FromDep (res : Nat → Result) (L : List Nat) (a : Nat × Nat × Nat) : Prop :=
  (a.1 = 0 ∨ ∃ d ∈ L, (res d).date = some a.1 ∨ (res d).leaf = a.1) ∧ (a.2.1 = 0 ∨ ∃ d ∈ L, (res d).leaf = a.2.1) ∧
    (a.2.2 = stable ∨ ∃ d ∈ L, (res d).status = a.2.2)

theorem fold_from {p : Project} {t : Target} {res : Nat → Result} {L : List Nat} : ∀ (l : List Nat) (a : Nat × Nat × Nat),
    (∀ d ∈ l, d ∈ L) → FromDep res L a → FromDep res L (l.foldl (fun a d => worst t (p.target d).check (res d) a) a)
  | [], _, _, h => h
  | d :: l, a, hs, ⟨h1, h2, h3⟩ => by
    rw [List.foldl_cons]
    refine fold_from l _ (fun e he => hs e (by simp [he])) ?_
    have hd := hs d (by simp)
    have hleaf : max a.2.1 (res d).leaf = 0 ∨ ∃ d' ∈ L, (res d').leaf = max a.2.1 (res d).leaf := by
      rcases Nat.le_total a.2.1 (res d).leaf with hle | hle
      · rw [Nat.max_eq_right hle]
        exact .inr ⟨d, hd, rfl⟩
      · rw [Nat.max_eq_left hle]
        exact h2
    unfold worst
    split
    · refine ⟨?_, hleaf, h3⟩
      rcases hleaf with hz | ⟨e, he, hz⟩
      · exact .inl hz
      · exact .inr ⟨e, he, .inr hz⟩
    · refine ⟨?_, hleaf, ?_⟩
      · dsimp only
        split
        · cases hm : (res d).date with
          | none => exact h1
          | some m =>
            simp only [later]
            rcases Nat.le_total a.1 m with hle | hle
            · rw [Nat.max_eq_right hle]
              exact .inr ⟨d, hd, .inl hm⟩
            · rw [Nat.max_eq_left hle]
              exact h1
        · exact h1
      · dsimp only
        rcases Nat.le_total a.2.2 (res d).status with hle | hle
        · rw [Nat.max_eq_right hle]
          exact .inr ⟨d, hd, rfl⟩
        · rw [Nat.max_eq_left hle]
          exact h3

theorem after_some {last : Nat} {o : Option Nat} (h : after last o = true) : ∃ m, o = some m ∧ m < last := by
  cases o with
  | none => cases h
  | some m => exact ⟨m, rfl, by simpa [after] using h⟩

/-- Why a status asks for building. -/
theorem statusOf_reason {p : Project} {i last st : Nat} (h : touched ≤ statusOf p i last st) :
    temp ≤ st ∨ ((p.target i).file = true ∧ (p.target i).date = none) ∨
    (∃ m, ((p.target i).date = some m ∨ timeDate p i = some m) ∧ m < last) ∨ (p.target i).always = true ∨ p.force = true := by
  unfold statusOf at h
  split at h
  · rename_i h1
    exact .inl (Nat.le_trans (by decide) h1)
  split at h
  · rename_i h1
    exact .inl h1
  split at h
  · rename_i h1
    simp only [Bool.and_eq_true, Option.isNone_iff_eq_none] at h1
    exact .inr (.inl h1)
  split at h
  · rename_i h1
    simp only [Bool.and_eq_true] at h1
    obtain ⟨m, hm, hl⟩ := after_some h1.2
    exact .inr (.inr (.inl ⟨m, .inl hm, hl⟩))
  split at h
  · rename_i h1
    obtain ⟨m, hm, hl⟩ := after_some h1
    exact .inr (.inr (.inl ⟨m, .inr hm, hl⟩))
  split at h
  · rename_i h1
    simp only [Bool.or_eq_true, Bool.and_eq_true] at h1
    rcases h1 with h1 | h1
    · exact .inr (.inr (.inr (.inl h1)))
    · exact .inr (.inr (.inr (.inr h1.1)))
  split at h
  · exact absurd h (by decide)
  · exact absurd h (by decide)

/-- The status of a target that takes part in the checks. -/
theorem status_eq {p : Project} (h : Ordered p) {i : Nat} (hd : (p.target i).deps ≠ [] ∨ (p.target i).actions = true)
    (hc : (p.target i).check = true) : (result p i).status =
      statusOf p i (worstAll p (p.target i) (result p)).1 (worstAll p (p.target i) (result p)).2.2 := by
  rw [result_eq h, bindWith]
  simp only [hc, if_true]
  rw [if_neg]
  rintro ⟨_, h1, h2⟩
  rcases hd with hd | hd
  · exact hd h1
  · rw [h2] at hd
    cases hd

theorem statusOf_ne_temp {p : Project} {i last st : Nat} : statusOf p i last st ≠ temp := by
  unfold statusOf
  repeat' split
  all_goals decide

theorem status_ne_temp {p : Project} (h : Ordered p) (i : Nat) : (result p i).status ≠ temp := by
  rw [result_eq h, bindWith]
  dsimp only
  generalize hl : (if (p.target i).check then (worstAll p (p.target i) (result p)).1 else 0) = last
  generalize hs : (if (p.target i).check then (worstAll p (p.target i) (result p)).2.2 else stable) = st
  split
  · split <;> decide
  · exact statusOf_ne_temp

theorem date_eq {p : Project} (h : Ordered p) {i : Nat} : (result p i).date =
    (p.target i).date.map fun m => max m (if (p.target i).check then (worstAll p (p.target i) (result p)).1 else 0) := by
  rw [result_eq h]
  rfl

theorem statusOf_temp {p : Project} {i last st : Nat} (h : temp ≤ st) : touched ≤ statusOf p i last st := by
  unfold statusOf
  split
  · decide
  · decide

theorem statusOf_missing {p : Project} {i last st : Nat} (hf : (p.target i).file = true) (hd : (p.target i).date = none) :
    touched ≤ statusOf p i last st := by
  unfold statusOf
  split
  · decide
  · split
    · decide
    · rw [if_pos (by simp [hf, hd])]
      decide

theorem statusOf_outdated {p : Project} {i last st m : Nat} (hf : (p.target i).file = true) (hd : (p.target i).date = some m)
    (hm : m < last) : touched ≤ statusOf p i last st := by
  unfold statusOf
  split
  · decide
  · split
    · decide
    · rw [hd]
      simp only [hf, Option.isNone_some, Bool.and_false, Bool.false_eq_true, if_false, after, hm, decide_true, Bool.and_true, if_true]
      decide

end Verif.JamBind
