/-
The compiler's report on an inconsistent precedence list: helper lemmas.
-/
import Verif.Class.Merge

namespace Verif.Class

theorem stuck_of_ok : ∀ (n m : Nat) (p L : List Nat) (ls : List (List Nat)),
    mergeC3 n p ls = .ok L → stuckLists m ls = none := by
  intro n
  induction n with
  | zero =>
    intro m p L ls h
    simp only [mergeC3] at h
    split at h
    · next he =>
      cases m with
      | zero => rfl
      | succ m => simp [stuckLists, he]
    · cases h
  | succ n ih =>
    intro m p L ls h
    cases m with
    | zero => rfl
    | succ m =>
      simp only [mergeC3] at h
      simp only [stuckLists]
      split
      · rfl
      · next he =>
        rw [if_neg he] at h
        cases hn : nextC3 ls with
        | none => simp [hn] at h
        | some next =>
          simp only [hn] at h
          exact ih m _ L _ h

theorem stuck_of_error : ∀ (n : Nat) (p : List Nat) (ls : List (List Nat)),
    mergeC3 n p ls = .error .inconsistent → ∃ rest, stuckLists (n + 1) ls = some rest := by
  intro n
  induction n with
  | zero =>
    intro p ls h
    simp only [mergeC3] at h
    split at h <;> cases h
  | succ n ih =>
    intro p ls h
    simp only [mergeC3] at h
    split at h
    · cases h
    · next he =>
      cases hn : nextC3 ls with
      | none => exact ⟨ls, by simp only [stuckLists, he, hn]; rfl⟩
      | some next =>
        simp only [hn] at h
        obtain ⟨rest, hr⟩ := ih _ _ h
        refine ⟨rest, ?_⟩
        rw [stuckLists, if_neg he, hn]
        exact hr

/-- The lists at which the merge gives up are what is left of the lists it was given. -/
theorem stuck_spec : ∀ (n : Nat) (ls rest : List (List Nat)), stuckLists n ls = some rest →
    (∀ (i : Nat) (l' : List Nat), rest[i]? = some l' → ∃ l, ls[i]? = some l ∧ l'.Sublist l) ∧
    nextC3 rest = none ∧ rest.all List.isEmpty = false := by
  intro n
  induction n with
  | zero => intro ls rest h; simp [stuckLists] at h
  | succ n ih =>
    intro ls rest h
    simp only [stuckLists] at h
    split at h
    · cases h
    · next he =>
      cases hn : nextC3 ls with
      | none =>
        simp only [hn, Option.some.injEq] at h
        subst h
        exact ⟨fun i l' hl => ⟨l', hl, List.Sublist.refl _⟩, hn, by simpa using he⟩
      | some next =>
        simp only [hn] at h
        obtain ⟨h1, h2, h3⟩ := ih _ _ h
        refine ⟨fun i l' hl => ?_, h2, h3⟩
        obtain ⟨l, hl2, hs⟩ := h1 i l' hl
        rw [List.getElem?_map, Option.map_eq_some_iff] at hl2
        obtain ⟨l0, hl0, rfl⟩ := hl2
        exact ⟨l0, hl0, hs.trans (removeNext_sublist _ _)⟩

theorem witnessInner_spec (cand : Nat) (cs : List Nat) (i : Nat) : ∀ (ls : List (List Nat)) (j : Nat)
    (a b i' j' : Nat), witnessInner cand cs i ls j = some (a, b, i', j') →
    a = cand ∧ i' = i ∧ b ∈ cs ∧ ∃ (m : Nat) (tl : List Nat), j' = j + m ∧
      ls[m]? = some (b :: tl) ∧ cand ∈ tl := by
  intro ls
  induction ls with
  | nil => intro j a b i' j' h; simp [witnessInner] at h
  | cons l ls ih =>
    intro j a b i' j' h
    have step : witnessInner cand cs i ls (j + 1) = some (a, b, i', j') →
        a = cand ∧ i' = i ∧ b ∈ cs ∧ ∃ (m : Nat) (tl : List Nat), j' = j + m ∧
          (l :: ls)[m]? = some (b :: tl) ∧ cand ∈ tl := by
      intro h
      obtain ⟨h1, h2, h3, m, tl, h4, h5, h6⟩ := ih (j + 1) a b i' j' h
      exact ⟨h1, h2, h3, m + 1, tl, by omega, by simpa using h5, h6⟩
    cases l with
    | nil => exact step h
    | cons x tl =>
      simp only [witnessInner] at h
      split at h
      · next hc =>
        cases h
        exact ⟨rfl, rfl, hc.1, 0, tl, by omega, by simp, hc.2⟩
      · exact step h

theorem witnessOuter_spec : ∀ (ls : List (List Nat)) (i a b i' j' : Nat),
    witnessOuter ls i = some (a, b, i', j') →
    ∃ (m1 m2 : Nat) (t1 t2 : List Nat), i' = i + m1 ∧ j' = i + m2 ∧ ls[m1]? = some (a :: t1) ∧
      ls[m2]? = some (b :: t2) ∧ b ∈ t1 ∧ a ∈ t2 := by
  intro ls
  induction ls with
  | nil => intro i a b i' j' h; simp [witnessOuter] at h
  | cons l ls ih =>
    intro i a b i' j' h
    have step : witnessOuter ls (i + 1) = some (a, b, i', j') →
        ∃ (m1 m2 : Nat) (t1 t2 : List Nat), i' = i + m1 ∧ j' = i + m2 ∧
          (l :: ls)[m1]? = some (a :: t1) ∧ (l :: ls)[m2]? = some (b :: t2) ∧ b ∈ t1 ∧ a ∈ t2 := by
      intro h
      obtain ⟨m1, m2, t1, t2, h1, h2, h3, h4, h5, h6⟩ := ih (i + 1) a b i' j' h
      exact ⟨m1 + 1, m2 + 1, t1, t2, by omega, by omega, by simpa using h3, by simpa using h4, h5, h6⟩
    cases l with
    | nil => exact step h
    | cons cand cs =>
      simp only [witnessOuter] at h
      cases hi : witnessInner cand cs i ls (i + 1) with
      | none =>
        simp only [hi] at h
        exact step h
      | some r =>
        simp only [hi, Option.some.injEq] at h
        subst h
        obtain ⟨rfl, rfl, h3, m, tl, h4, h5, h6⟩ := witnessInner_spec cand cs i ls (i + 1) a b i' j' hi
        exact ⟨0, m + 1, cs, tl, by omega, by omega, by simp, by simpa using h5, h3, h6⟩

/-! ### Two direct superclasses -/

/-- What is left of the three lists of a class with the direct superclasses `s1` and `s2`. -/
structure Two (s1 s2 : Nat) (M1 M2 : List Nat) (l1 l2 l3 : List Nat) : Prop where
  nd1 : l1.Nodup
  nd2 : l2.Nodup
  rest : (l3 = [s1, s2] ∧ l1 = s1 :: M1 ∧ l2 = s2 :: M2) ∨ (l3 = [s2] ∧ l2 = s2 :: M2) ∨ l3 = []

theorem removeNext_nodup {n : Nat} {l : List Nat} (h : l.Nodup) : (removeNext n l).Nodup :=
  h.sublist (removeNext_sublist n l)

theorem Two.step {s1 s2 : Nat} {M1 M2 l1 l2 l3 : List Nat} (hne : s1 ≠ s2)
    (h : Two s1 s2 M1 M2 l1 l2 l3) {n : Nat} (hc : Cand [l1, l2, l3] n) :
    Two s1 s2 M1 M2 (removeNext n l1) (removeNext n l2) (removeNext n l3) := by
  refine ⟨removeNext_nodup h.nd1, removeNext_nodup h.nd2, ?_⟩
  obtain ⟨⟨l, hl, hh⟩, ht⟩ := hc
  have h3 := ht l3 (by simp)
  rcases h.rest with ⟨e3, e1, e2⟩ | ⟨e3, e2⟩ | e3
  · rw [e3, List.tail_cons, List.mem_singleton] at h3
    have hn : n = s1 := by
      simp only [List.mem_cons, List.not_mem_nil, or_false] at hl
      rcases hl with rfl | rfl | rfl
      · rw [e1] at hh; simpa using hh.symm
      · rw [e2] at hh
        exact absurd (by simpa using hh.symm) h3
      · rw [e3] at hh; simpa using hh.symm
    right; left
    rw [e3, e2, hn]
    simp [removeNext, fun e => hne e, Ne.symm hne]
  · by_cases e : s2 = n
    · right; right
      rw [e3, e]
      simp [removeNext]
    · right; left
      rw [e3, e2]
      simp [removeNext, e]
  · right; right
    rw [e3]; rfl

theorem stuck_two {s1 s2 : Nat} {M1 M2 : List Nat} (hne : s1 ≠ s2) : ∀ (n : Nat)
    (l1 l2 l3 : List Nat) (rest : List (List Nat)), Two s1 s2 M1 M2 l1 l2 l3 →
    stuckLists n [l1, l2, l3] = some rest →
    ∃ r1 r2 r3, rest = [r1, r2, r3] ∧ Two s1 s2 M1 M2 r1 r2 r3 := by
  intro n
  induction n with
  | zero => intro l1 l2 l3 rest _ h; simp [stuckLists] at h
  | succ n ih =>
    intro l1 l2 l3 rest h hs
    simp only [stuckLists] at hs
    split at hs
    · cases hs
    · cases hn : nextC3 [l1, l2, l3] with
      | none =>
        simp only [hn, Option.some.injEq] at hs
        exact ⟨l1, l2, l3, hs.symm, h⟩
      | some next =>
        simp only [hn] at hs
        exact ih _ _ _ _ (h.step hne (nextC3_some hn)) hs

/-- With two different direct superclasses, witnesses are found. -/
theorem witness_two {s1 s2 : Nat} {M1 M2 r1 r2 r3 : List Nat} (hne : s1 ≠ s2)
    (h : Two s1 s2 M1 M2 r1 r2 r3) (hn : nextC3 [r1, r2, r3] = none)
    (hall : [r1, r2, r3].all List.isEmpty = false) :
    ∃ r, witnessOuter [r1, r2, r3] 0 = some r := by
  have hb : ∀ (x : Nat) (t : List Nat), (x :: t) ∈ [r1, r2, r3] →
      ∃ l ∈ [r1, r2, r3], x ∈ l.tail := by
    intro x t hx
    by_contra hc
    exact nextC3_none hn x ⟨⟨_, hx, rfl⟩, fun l hl ht => hc ⟨l, hl, ht⟩⟩
  have own : ∀ {x : Nat} {t : List Nat}, (x :: t).Nodup → x ∉ t := fun h => (List.nodup_cons.mp h).1
  rcases h.rest with ⟨e3, e1, e2⟩ | ⟨e3, e2⟩ | e3
  · subst e3; subst e1; subst e2
    obtain ⟨l, hl, ht⟩ := hb s1 M1 (by simp)
    have h1 : s1 ∈ M2 := by
      simp only [List.mem_cons, List.not_mem_nil, or_false] at hl
      rcases hl with rfl | rfl | rfl
      · exact absurd ht (own h.nd1)
      · exact ht
      · exact absurd (by simpa using ht) hne
    have hs1 : s1 ∉ M1 := own h.nd1
    by_cases h2 : s2 ∈ M1
    · exact ⟨(s1, s2, 0, 1), by simp [witnessOuter, witnessInner, h1, h2]⟩
    · exact ⟨(s2, s1, 1, 2), by simp [witnessOuter, witnessInner, h1, h2, hs1]⟩
  · subst e3; subst e2
    obtain ⟨l, hl, ht⟩ := hb s2 M2 (by simp)
    have h1 : s2 ∈ r1.tail := by
      simp only [List.mem_cons, List.not_mem_nil, or_false] at hl
      rcases hl with rfl | rfl | rfl
      · exact ht
      · exact absurd ht (own h.nd2)
      · simp at ht
    cases r1 with
    | nil => simp at h1
    | cons x t1 =>
      obtain ⟨l, hl, ht⟩ := hb x t1 (by simp)
      have h2 : x ∈ M2 := by
        simp only [List.mem_cons, List.not_mem_nil, or_false] at hl
        rcases hl with rfl | rfl | rfl
        · exact absurd ht (own h.nd1)
        · exact ht
        · simp at ht
      simp only [List.tail_cons] at h1
      exact ⟨(x, s2, 0, 1), by simp [witnessOuter, witnessInner, h1, h2]⟩
  · subst e3
    cases r1 with
    | nil =>
      cases r2 with
      | nil => simp at hall
      | cons y t2 =>
        obtain ⟨l, hl, ht⟩ := hb y t2 (by simp)
        exfalso
        simp only [List.mem_cons, List.not_mem_nil, or_false] at hl
        rcases hl with rfl | rfl | rfl
        · simp at ht
        · exact own h.nd2 ht
        · simp at ht
    | cons x t1 =>
      obtain ⟨l, hl, ht⟩ := hb x t1 (by simp)
      have h1 : x ∈ r2.tail := by
        simp only [List.mem_cons, List.not_mem_nil, or_false] at hl
        rcases hl with rfl | rfl | rfl
        · exact absurd ht (own h.nd1)
        · exact ht
        · simp at ht
      cases r2 with
      | nil => simp at h1
      | cons y t2 =>
        obtain ⟨l, hl, ht⟩ := hb y t2 (by simp)
        have h2 : y ∈ t1 := by
          simp only [List.mem_cons, List.not_mem_nil, or_false] at hl
          rcases hl with rfl | rfl | rfl
          · exact ht
          · exact absurd ht (own h.nd2)
          · simp at ht
        simp only [List.tail_cons] at h1
        exact ⟨(x, y, 0, 1), by simp [witnessOuter, witnessInner, h1, h2]⟩

end Verif.Class
