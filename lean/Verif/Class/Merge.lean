/-
Lemmas about the merging of precedence lists.
-/
import Verif.Class.Spec

namespace Verif.Class

theorem removeNext_of_not_mem {n : Nat} {l : List Nat} (h : n ∉ l) : removeNext n l = l := by
  cases l with
  | nil => rfl
  | cons a t =>
    have : a ≠ n := fun e => h (by simp [e])
    simp [removeNext, this]

theorem removeNext_length_le (n : Nat) (l : List Nat) : (removeNext n l).length ≤ l.length := by
  cases l with
  | nil => simp [removeNext]
  | cons a t => simp only [removeNext]; split <;> simp

theorem removeNext_sublist (n : Nat) (l : List Nat) : (removeNext n l).Sublist l := by
  cases l with
  | nil => simp [removeNext]
  | cons a t => simp only [removeNext]; split <;> simp

theorem removeNext_eq_filter {n : Nat} {l : List Nat} (h : n ∉ l.tail) :
    removeNext n l = l.filter (fun x => decide (x ≠ n)) := by
  cases l with
  | nil => rfl
  | cons a t =>
    simp only [List.tail_cons] at h
    have ht : t.filter (fun x => decide (x ≠ n)) = t :=
      List.filter_eq_self.mpr (fun x hx => by
        simp only [decide_eq_true_eq]
        intro e
        exact h (e ▸ hx))
    by_cases e : a = n
    · subst e
      simp only [removeNext]
      rw [List.filter_cons_of_neg (by simp)]
      exact ht.symm
    · simp only [removeNext, if_neg e]
      rw [List.filter_cons_of_pos (by simp [e]), ht]

/-- What a chosen next class satisfies. -/
structure Cand (ls : List (List Nat)) (n : Nat) : Prop where
  atHead : ∃ l ∈ ls, l.head? = some n
  notInTail : ∀ l ∈ ls, n ∉ l.tail

theorem nextC3_some {ls : List (List Nat)} {n : Nat} (h : nextC3 ls = some n) : Cand ls n := by
  obtain ⟨l, hl, hc⟩ := List.exists_of_findSome?_eq_some h
  cases l with
  | nil => simp [candidateAtHead] at hc
  | cons a t =>
    simp only [candidateAtHead] at hc
    split at hc
    · cases hc
    · next hn =>
      cases hc
      refine ⟨⟨_, hl, rfl⟩, fun l' hl' hm => hn ?_⟩
      exact List.any_eq_true.mpr ⟨l', hl', by simpa using hm⟩

theorem nextC3_none {ls : List (List Nat)} (h : nextC3 ls = none) (n : Nat) : ¬ Cand ls n := by
  rintro ⟨⟨l, hl, hh⟩, ht⟩
  have := List.findSome?_eq_none_iff.mp h l hl
  cases l with
  | nil => simp at hh
  | cons a t =>
    simp only [List.head?_cons, Option.some.injEq] at hh
    subst hh
    simp only [candidateAtHead] at this
    split at this
    · next hn =>
      obtain ⟨l', hl', hm⟩ := List.any_eq_true.mp hn
      exact ht l' hl' (by simpa using hm)
    · cases this

theorem all_isEmpty {ls : List (List Nat)} : ls.all List.isEmpty = true ↔ ∀ l ∈ ls, l = [] := by
  simp [List.all_eq_true]

theorem length_le_fuel {ls : List (List Nat)} {l : List Nat} (h : l ∈ ls) :
    l.length ≤ mergeFuel ls := by
  induction ls with
  | nil => simp at h
  | cons k ks ih =>
    simp only [mergeFuel, List.map_cons, List.sum_cons]
    rcases List.mem_cons.mp h with rfl | h
    · omega
    · have := ih h
      simp only [mergeFuel] at this
      omega

/-- Removing the chosen class makes the lists shorter. -/
theorem fuel_step {ls : List (List Nat)} {n : Nat} (h : ∃ l ∈ ls, l.head? = some n) :
    mergeFuel (ls.map (removeNext n)) < mergeFuel ls := by
  induction ls with
  | nil => simp at h
  | cons l ls ih =>
    have hle : ∀ ks : List (List Nat), mergeFuel (ks.map (removeNext n)) ≤ mergeFuel ks := by
      intro ks
      induction ks with
      | nil => simp [mergeFuel]
      | cons k ks ih =>
        have := removeNext_length_le n k
        simp only [mergeFuel, List.map_cons, List.sum_cons] at ih ⊢
        omega
    obtain ⟨l', hl', hh⟩ := h
    simp only [mergeFuel, List.map_cons, List.sum_cons]
    rcases List.mem_cons.mp hl' with rfl | hm
    · have hlt : (removeNext n l').length < l'.length := by
        cases l' with
        | nil => simp at hh
        | cons a t =>
          simp only [List.head?_cons, Option.some.injEq] at hh
          simp [removeNext, hh]
      have := hle ls
      simp only [mergeFuel] at this
      omega
    · have h1 := ih ⟨l', hm, hh⟩
      have := removeNext_length_le n l
      simp only [mergeFuel] at h1
      omega

/-- The result of a successful merge. -/
structure Merged (ls : List (List Nat)) (M : List Nat) : Prop where
  nodup : M.Nodup
  sub : ∀ l ∈ ls, l.Sublist M
  src : ∀ x ∈ M, ∃ l ∈ ls, x ∈ l

theorem merged_nil {ls : List (List Nat)} (h : ∀ l ∈ ls, l = []) : Merged ls [] :=
  ⟨List.nodup_nil, fun l hl => by simp [h l hl], by simp⟩

theorem merged_cons {ls : List (List Nat)} {n : Nat} (hc : Cand ls n) {M : List Nat}
    (hM : Merged (ls.map (removeNext n)) M) : Merged ls (n :: M) := by
  refine ⟨List.nodup_cons.mpr ⟨fun hn => ?_, hM.nodup⟩, fun l hl => ?_, fun x hx => ?_⟩
  · obtain ⟨l', hl', hx⟩ := hM.src n hn
    obtain ⟨l, hl, rfl⟩ := List.mem_map.mp hl'
    have := hc.notInTail l hl
    cases l with
    | nil => simp [removeNext] at hx
    | cons a t =>
      simp only [List.tail_cons] at this
      simp only [removeNext] at hx
      split at hx
      · exact this hx
      · next hne =>
        rcases List.mem_cons.mp hx with e | e
        · exact hne e.symm
        · exact this e
  · have h1 := hM.sub _ (List.mem_map_of_mem hl)
    cases l with
    | nil => simp
    | cons a t =>
      simp only [removeNext] at h1
      split at h1
      · next e => subst e; exact h1.cons_cons _
      · exact h1.cons _
  · rcases List.mem_cons.mp hx with rfl | hx
    · obtain ⟨l, hl, hh⟩ := hc.atHead
      exact ⟨l, hl, List.mem_of_mem_head? hh⟩
    · obtain ⟨l', hl', hx'⟩ := hM.src x hx
      obtain ⟨l, hl, rfl⟩ := List.mem_map.mp hl'
      exact ⟨l, hl, (removeNext_sublist n l).subset hx'⟩

theorem mergeC3_ok : ∀ (n : Nat) (p : List Nat) (ls : List (List Nat)) (L : List Nat),
    mergeC3 n p ls = .ok L → ∃ M, L = p.reverse ++ M ∧ Merged ls M := by
  intro n
  induction n with
  | zero =>
    intro p ls L h
    simp only [mergeC3] at h
    split at h
    · next he => cases h; exact ⟨[], by simp, merged_nil (all_isEmpty.mp he)⟩
    · cases h
  | succ n ih =>
    intro p ls L h
    simp only [mergeC3] at h
    split at h
    · next he => cases h; exact ⟨[], by simp, merged_nil (all_isEmpty.mp he)⟩
    · split at h
      · next next hn =>
        obtain ⟨M, rfl, hM⟩ := ih _ _ _ h
        exact ⟨next :: M, by simp, merged_cons (nextC3_some hn) hM⟩
      · cases h

/-- If an order for all the lists exists, some class can be chosen. -/
theorem exists_cand : ∀ (M : List Nat) (ls : List (List Nat)), M.Nodup →
    (∀ l ∈ ls, l.Sublist M) → (∃ l ∈ ls, l ≠ []) → ∃ n, Cand ls n := by
  intro M
  induction M with
  | nil =>
    rintro ls - h ⟨l, hl, hne⟩
    exact absurd (List.sublist_nil.mp (h l hl)) hne
  | cons m M ih =>
    intro ls hM h hex
    obtain ⟨hm, hM'⟩ := List.nodup_cons.mp hM
    by_cases hin : ∃ l ∈ ls, m ∈ l
    · have key : ∀ l ∈ ls, m ∈ l → l.head? = some m := by
        intro l hl hml
        cases l with
        | nil => simp at hml
        | cons a t =>
          cases h _ hl with
          | cons _ hs => exact absurd (hs.subset hml) hm
          | cons_cons _ hs => rfl
      obtain ⟨l, hl, hml⟩ := hin
      refine ⟨m, ⟨l, hl, key l hl hml⟩, fun l' hl' ht => ?_⟩
      cases l' with
      | nil => simp at ht
      | cons a t =>
        cases h _ hl' with
        | cons _ hs => exact hm (hs.subset (List.mem_cons_of_mem _ ht))
        | cons_cons _ hs => exact hm (hs.subset ht)
    · refine ih ls hM' (fun l hl => ?_) hex
      have hs := h l hl
      cases l with
      | nil => simp
      | cons a t =>
        cases hs with
        | cons _ hs => exact hs
        | cons_cons _ hs => exact absurd ⟨_, hl, List.mem_cons_self⟩ hin

/-- The order without the chosen class is an order for the shortened lists. -/
theorem order_step {ls : List (List Nat)} {n : Nat} (hc : ∀ l ∈ ls, n ∉ l.tail) {M : List Nat}
    (hM : M.Nodup) (h : ∀ l ∈ ls, l.Sublist M) :
    (M.filter (fun x => decide (x ≠ n))).Nodup ∧
    ∀ l ∈ ls.map (removeNext n), l.Sublist (M.filter (fun x => decide (x ≠ n))) := by
  refine ⟨hM.filter _, fun l hl => ?_⟩
  obtain ⟨k, hk, rfl⟩ := List.mem_map.mp hl
  rw [removeNext_eq_filter (hc k hk)]
  exact (h k hk).filter _

theorem mergeC3_complete : ∀ (n : Nat) (p : List Nat) (ls : List (List Nat)) (M : List Nat),
    mergeFuel ls ≤ n → M.Nodup → (∀ l ∈ ls, l.Sublist M) → ∃ L, mergeC3 n p ls = .ok L := by
  intro n
  induction n with
  | zero =>
    intro p ls M hf hM h
    have : ls.all List.isEmpty = true := by
      rw [all_isEmpty]
      intro l hl
      have : l.length ≤ mergeFuel ls := length_le_fuel hl
      exact List.length_eq_zero_iff.mp (by omega)
    exact ⟨p.reverse, by simp [mergeC3, this]⟩
  | succ n ih =>
    intro p ls M hf hM h
    simp only [mergeC3]
    split
    · exact ⟨_, rfl⟩
    · next he =>
      have hex : ∃ l ∈ ls, l ≠ [] := by
        by_contra hc
        push Not at hc
        exact he (all_isEmpty.mpr hc)
      obtain ⟨m, hm⟩ := exists_cand M ls hM h hex
      cases hn : nextC3 ls with
      | none => exact absurd hm (nextC3_none hn m)
      | some x =>
        have hx := nextC3_some hn
        obtain ⟨h1, h2⟩ := order_step hx.notInTail hM h
        have := fuel_step hx.atHead
        exact ih _ _ _ (by omega) h1 h2

theorem mergeC3_error : ∀ (n : Nat) (p : List Nat) (ls : List (List Nat)) (e : Err),
    mergeFuel ls ≤ n → mergeC3 n p ls = .error e → e = .inconsistent := by
  intro n
  induction n with
  | zero =>
    intro p ls e hf h
    have : ls.all List.isEmpty = true := by
      rw [all_isEmpty]
      intro l hl
      have : l.length ≤ mergeFuel ls := length_le_fuel hl
      exact List.length_eq_zero_iff.mp (by omega)
    simp [mergeC3, this] at h
  | succ n ih =>
    intro p ls e hf h
    simp only [mergeC3] at h
    split at h
    · cases h
    · split at h
      · next next hn =>
        have := fuel_step (nextC3_some hn).atHead
        exact ih _ _ _ (by omega) h
      · cases h; rfl

/-! ### The older algorithm -/

/-- Every element of the list is a direct superclass of a class placed already, or of an earlier
    element of the list. -/
def Fed (sup : Nat → List Nat) (p l : List Nat) : Prop :=
  ∀ a x b, l = a ++ x :: b → ∃ y, (y ∈ p ∨ y ∈ a) ∧ x ∈ sup y

theorem unconstrained_of {ls : List (List Nat)} {n : Nat} (h : Cand ls n) :
    unconstrained ls n = some n := by
  obtain ⟨⟨l, hl, hh⟩, ht⟩ := h
  have h1 : ls.any (fun l => decide (l.head? = some n)) = true :=
    List.any_eq_true.mpr ⟨l, hl, by simpa using hh⟩
  have h2 : ls.all (fun l => decide (l.head? = some n) || !decide (n ∈ l.tail)) = true :=
    List.all_eq_true.mpr (fun l hl => by simp [ht l hl])
  simp [unconstrained, h1, h2]

theorem unconstrained_some {ls : List (List Nat)} (hnd : ∀ l ∈ ls, l.Nodup) {s n : Nat}
    (h : unconstrained ls s = some n) : Cand ls n := by
  unfold unconstrained at h
  split at h
  · next hc =>
    cases h
    rw [Bool.and_eq_true, List.any_eq_true, List.all_eq_true] at hc
    obtain ⟨⟨l, hl, hh⟩, ha⟩ := hc
    refine ⟨⟨l, hl, by simpa using hh⟩, fun l' hl' hm => ?_⟩
    have := ha l' hl'
    simp only [Bool.or_eq_true, decide_eq_true_eq, Bool.not_eq_true', decide_eq_false_iff_not]
      at this
    rcases this with h1 | h1
    · cases l' with
      | nil => simp at hm
      | cons a t =>
        simp only [List.head?_cons, Option.some.injEq] at h1
        subst h1
        exact (List.nodup_cons.mp (hnd _ hl')).1 hm
    · exact h1 hm
  · cases h

theorem nextOld_some {sup : Nat → List Nat} {p : List Nat} {ls : List (List Nat)}
    (hnd : ∀ l ∈ ls, l.Nodup) {n : Nat} (h : nextOld sup p ls = some n) : Cand ls n := by
  obtain ⟨c, -, hc⟩ := List.exists_of_findSome?_eq_some h
  obtain ⟨s, -, hs⟩ := List.exists_of_findSome?_eq_some hc
  exact unconstrained_some hnd hs

theorem nextOld_none {sup : Nat → List Nat} {p : List Nat} {ls : List (List Nat)} {n : Nat}
    (hc : Cand ls n) (hf : ∃ y ∈ p, n ∈ sup y) : nextOld sup p ls ≠ none := by
  intro h
  obtain ⟨y, hy, hn⟩ := hf
  have h1 := List.findSome?_eq_none_iff.mp h y hy
  have h2 := List.findSome?_eq_none_iff.mp h1 n hn
  rw [unconstrained_of hc] at h2
  cases h2

theorem fed_removeNext {sup : Nat → List Nat} {p l : List Nat} {n : Nat} (h : Fed sup p l) :
    Fed sup (n :: p) (removeNext n l) := by
  cases l with
  | nil =>
    intro a x b e
    simp [removeNext] at e
  | cons c t =>
    simp only [removeNext]
    split
    · next e =>
      subst e
      rintro a x b rfl
      obtain ⟨y, hy, hx⟩ := h (c :: a) x b rfl
      refine ⟨y, ?_, hx⟩
      rcases hy with hy | hy
      · exact Or.inl (List.mem_cons_of_mem _ hy)
      · rcases List.mem_cons.mp hy with rfl | hy
        · exact Or.inl List.mem_cons_self
        · exact Or.inr hy
    · rintro a x b e
      obtain ⟨y, hy, hx⟩ := h a x b e
      exact ⟨y, hy.imp (List.mem_cons_of_mem _) id, hx⟩

theorem mergeOld_complete (sup : Nat → List Nat) :
    ∀ (n : Nat) (p : List Nat) (ls : List (List Nat)) (M : List Nat),
    mergeFuel ls ≤ n → M.Nodup → (∀ l ∈ ls, l.Sublist M) → (∀ l ∈ ls, Fed sup p l) →
    ∃ L, mergeOld sup n p ls = .ok L := by
  intro n
  induction n with
  | zero =>
    intro p ls M hf hM h _
    have : ls.all List.isEmpty = true := by
      rw [all_isEmpty]
      intro l hl
      have : l.length ≤ mergeFuel ls := length_le_fuel hl
      exact List.length_eq_zero_iff.mp (by omega)
    exact ⟨p.reverse, by simp [mergeOld, this]⟩
  | succ n ih =>
    intro p ls M hf hM h hfed
    simp only [mergeOld]
    split
    · exact ⟨_, rfl⟩
    · next he =>
      have hex : ∃ l ∈ ls, l ≠ [] := by
        by_contra hc
        push Not at hc
        exact he (all_isEmpty.mpr hc)
      obtain ⟨m, hm⟩ := exists_cand M ls hM h hex
      have hnd : ∀ l ∈ ls, l.Nodup := fun l hl => (h l hl).nodup hM
      cases hn : nextOld sup p ls with
      | none =>
        refine absurd hn (nextOld_none hm ?_)
        obtain ⟨l, hl, hh⟩ := hm.atHead
        cases l with
        | nil => simp at hh
        | cons a t =>
          simp only [List.head?_cons, Option.some.injEq] at hh
          subst hh
          obtain ⟨y, hy, hx⟩ := hfed _ hl [] a t rfl
          exact ⟨y, by simpa using hy, hx⟩
      | some x =>
        have hx := nextOld_some hnd hn
        obtain ⟨h1, h2⟩ := order_step hx.notInTail hM h
        have := fuel_step hx.atHead
        refine ih _ _ _ (by omega) h1 h2 (fun l hl => ?_)
        obtain ⟨k, hk, rfl⟩ := List.mem_map.mp hl
        exact fed_removeNext (hfed k hk)

end Verif.Class
