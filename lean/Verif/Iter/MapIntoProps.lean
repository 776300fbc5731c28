/-
The properties of `map-into`.
-/
import Verif.Iter.MapInto
import Verif.Iter.Props

namespace Verif.Iter

variable {α β : Type}

/-! ### Specification -/

/-- The target can grow. -/
def TKind.grows : TKind → Bool
  | .stretchyArray => true
  | .deque => true
  | _ => false

/-- The elements of a target after `map-into` with a sequence: the first elements are those of the sequence,
    mapped, as far as they fit in, or all if the target can grow; the others are as before. -/
def mapped (grows : Bool) (f : α → β) (t : List β) (c : List α) : List β :=
  if grows then c.map f ++ t.drop c.length else (c.map f).take t.length ++ t.drop c.length

/-- The element of a target with key `i` after `map-into` with a table. -/
def keyed (f : α → β) (coll : Assoc Key α) (i : Nat) (old : β) : β :=
  match assoc coll (.int i) with
  | none => old
  | some v => f v

/-! ### Lemmas -/

theorem mapped_nil (g : Bool) (f : α → β) (t : List β) : mapped g f t [] = t := by
  unfold mapped; cases g <;> simp

theorem mapped_cons (g : Bool) (f : α → β) (b : β) (t : List β) (v : α) (c : List α) : mapped g f (b :: t) (v :: c) = f v :: mapped g f t c := by
  unfold mapped; cases g <;> simp

theorem rigidLoop_eq (f : α → β) (c : S α) (t : S β) : ∀ (k : Nat) (pre rest : List β), pre.length + rest.length = t.items.length → pre.length ≤ c.items.length → rest.length < k →
    rigidLoop f c (limitS t) k { t with items := pre ++ rest } (stateAt t pre.length) (stateAt c pre.length) =
      .ok { t with items := pre ++ mapped false f rest (c.items.drop pre.length) }
  | 0, _, _, _, _, h => by omega
  | k + 1, pre, rest, hl, hc, hk => by
    have hfin : finishedS { t with items := pre ++ rest } (stateAt t pre.length) (limitS t) = decide (pre.length = t.items.length) := by
      have := finishedS_stateAt { t with items := pre ++ rest } (k := pre.length) (by simp)
      rw [limitS_items _ _ (by simpa using hl)] at this
      rw [show stateAt t pre.length = stateAt { t with items := pre ++ rest } pre.length from rfl, this]
      simp [hl]
    rw [rigidLoop, finishedS_stateAt c hc, hfin]
    by_cases h1 : pre.length = c.items.length
    · rw [if_pos (by simpa using h1), List.drop_of_length_le (by omega), mapped_nil]
    · rw [if_neg (by simpa using h1)]
      cases rest with
      | nil =>
        rw [if_pos (by simpa using hl)]
        simp [mapped]
      | cons b rest =>
        rw [if_neg (by simp at hl ⊢; omega), curS_stateAt, List.getElem?_eq_getElem (by omega)]
        dsimp only
        rw [setS_items t _ _ (by simp)]
        dsimp only
        rw [nextS_items t _ (by simp), nextS_stateAt c (by omega)]
        have := rigidLoop_eq f c t k (pre ++ [f c.items[pre.length]]) rest (by simp at hl ⊢; omega) (by simp; omega) (by simpa using hk)
        rw [List.length_append, List.length_singleton] at this
        rw [show (pre ++ b :: rest).set pre.length (f c.items[pre.length]) = pre ++ [f c.items[pre.length]] ++ rest by simp, this]
        rw [List.drop_eq_getElem_cons (i := pre.length) (by omega), mapped_cons]
        simp only [List.append_assoc, List.singleton_append]

theorem rigidArray_eq (f : α → β) : ∀ (c : List α) (pre rest : List β),
    rigidArray f (pre.length + rest.length) c (pre ++ rest) pre.length = pre ++ mapped false f rest c
  | [], pre, rest => by rw [mapped_nil]; rfl
  | v :: c, pre, [] => by
    rw [rigidArray, if_neg (by simp)]
    simp [mapped]
  | v :: c, pre, b :: rest => by
    rw [rigidArray, if_pos (by simp)]
    have := rigidArray_eq f c (pre ++ [f v]) rest
    simp only [List.length_append, List.length_singleton, List.append_assoc, List.singleton_append] at this
    rw [show (pre ++ b :: rest).set pre.length (f v) = pre ++ f v :: rest by simp, List.length_cons,
      show pre.length + (rest.length + 1) = pre.length + 1 + rest.length by omega, this]
    simp [mapped]

theorem rigidArrays_eq (f : α → β) (c : List α) : ∀ (rest pre : List β), pre.length ≤ c.length →
    rigidArrays f c (min (pre ++ rest).length c.length - pre.length) (pre ++ rest) pre.length = some (pre ++ mapped false f rest (c.drop pre.length))
  | [], pre, h => by
    rw [show min (pre ++ ([] : List β)).length c.length - pre.length = 0 by simp; omega, rigidArrays]
    simp [mapped]
  | b :: rest, pre, h => by
    by_cases hc : pre.length = c.length
    · rw [show min (pre ++ b :: rest).length c.length - pre.length = 0 by omega, rigidArrays, List.drop_of_length_le (by omega), mapped_nil]
    · rw [show min (pre ++ b :: rest).length c.length - pre.length = (min (pre ++ [b] ++ rest).length c.length - (pre.length + 1)) + 1 by simp; omega,
        rigidArrays, List.getElem?_eq_getElem (by omega)]
      dsimp only
      rw [if_pos (by simp), show (pre ++ b :: rest).set pre.length (f c[pre.length]) = (pre ++ [f c[pre.length]]) ++ rest by simp]
      have := rigidArrays_eq f c rest (pre ++ [f c[pre.length]]) (by simp; omega)
      rw [List.length_append (as := pre), List.length_singleton] at this
      rw [show (pre ++ [b] ++ rest).length = (pre ++ [f c[pre.length]] ++ rest).length by simp, this, List.drop_eq_getElem_cons (i := pre.length) (by omega), mapped_cons]
      simp only [List.append_assoc, List.singleton_append]

theorem stretchyArray_eq (blank : β) (f : α → β) : ∀ (c : List α) (pre rest : List β),
    stretchyArray blank f c (pre ++ rest) pre.length = pre ++ mapped true f rest c
  | [], pre, rest => by rw [mapped_nil]; rfl
  | v :: c, pre, rest => by
    rw [stretchyArray]
    have hg : growSet blank (pre ++ rest) pre.length (f v) = (pre ++ [f v]) ++ rest.drop 1 := by
      unfold growSet
      cases rest with
      | nil => simp
      | cons b rest => simp
    rw [hg]
    have := stretchyArray_eq blank f c (pre ++ [f v]) (rest.drop 1)
    rw [List.length_append, List.length_singleton] at this
    rw [this]
    simp [mapped]

theorem restLoop_eq (f : α → β) (c : S α) (t : S β) (hct : t.items.length = c.items.length) : ∀ (k : Nat) (pre rest : List β), pre.length + rest.length = t.items.length → rest.length < k →
    restLoop f c (limitS t) k { t with items := pre ++ rest } (stateAt t pre.length) (stateAt c pre.length) =
      .ok ({ t with items := pre ++ (c.items.drop pre.length).map f }, stateAt c c.items.length)
  | 0, _, _, _, h => by omega
  | k + 1, pre, rest, hl, hk => by
    have hfin : finishedS { t with items := pre ++ rest } (stateAt t pre.length) (limitS t) = decide (pre.length = t.items.length) := by
      have := finishedS_stateAt { t with items := pre ++ rest } (k := pre.length) (by simp)
      rw [limitS_items _ _ (by simpa using hl)] at this
      rw [show stateAt t pre.length = stateAt { t with items := pre ++ rest } pre.length from rfl, this]
      simp [hl]
    rw [restLoop, hfin]
    cases rest with
    | nil =>
      have h0 : pre.length = t.items.length := by simpa using hl
      rw [if_pos (by simpa using h0), List.drop_of_length_le (by omega), show pre.length = c.items.length by omega]
      simp
    | cons b rest =>
      have hlt : pre.length < c.items.length := by simp at hl; omega
      rw [if_neg (by simp at hl ⊢; omega), curS_stateAt, List.getElem?_eq_getElem hlt]
      dsimp only
      rw [setS_items t _ _ (by simp)]
      dsimp only
      rw [nextS_items t _ (by simp), nextS_stateAt c hlt]
      have := restLoop_eq f c t hct k (pre ++ [f c.items[pre.length]]) rest (by simp at hl ⊢; omega) (by simpa using hk)
      rw [List.length_append, List.length_singleton] at this
      rw [show (pre ++ b :: rest).set pre.length (f c.items[pre.length]) = pre ++ [f c.items[pre.length]] ++ rest by simp, this]
      rw [List.drop_eq_getElem_cons (i := pre.length) (by omega), List.map_cons]
      simp only [List.append_assoc, List.singleton_append]

theorem stretchyLoop_eq (off : Nat) (blank : β) (f : α → β) (c : S α) (t : S β) (hok : c.kind = .list ∨ c.items.length ≤ t.items.length) : ∀ (k : Nat) (pre rest : List β),
    pre.length + rest.length = t.items.length → pre.length ≤ c.items.length → rest.length + c.items.length + 2 < k →
    ∃ o, stretchyLoop off blank f c (limitS t) k { t with items := pre ++ rest } (stateAt t pre.length) (stateAt c pre.length) pre.length =
      .ok ⟨t.kind, pre ++ mapped true f rest (c.items.drop pre.length), o⟩
  | 0, _, _, _, _, h => by omega
  | k + 1, pre, rest, hl, hc, hk => by
    have hfin : finishedS { t with items := pre ++ rest } (stateAt t pre.length) (limitS t) = decide (pre.length = t.items.length) := by
      have := finishedS_stateAt { t with items := pre ++ rest } (k := pre.length) (by simp)
      rw [limitS_items _ _ (by simpa using hl)] at this
      rw [show stateAt t pre.length = stateAt { t with items := pre ++ rest } pre.length from rfl, this]
      simp [hl]
    rw [stretchyLoop, finishedS_stateAt c hc, hfin]
    by_cases h1 : pre.length = c.items.length
    · rw [if_pos (by simpa using h1), List.drop_of_length_le (by omega), mapped_nil]
      exact ⟨t.first, rfl⟩
    · rw [if_neg (by simpa using h1)]
      cases rest with
      | nil =>
        have h0 : pre.length = t.items.length := by simpa using hl
        rw [if_pos (by simpa using h0)]
        have hlist : c.kind = .list := hok.elim id (fun h => by omega)
        dsimp only
        have hres : resize off blank { t with items := pre ++ [] } c.items.length = ⟨t.kind, pre ++ List.replicate (c.items.length - pre.length) blank, off⟩ := by
          unfold resize
          dsimp only
          rw [List.append_nil, List.take_of_length_le hc]
        rw [hres]
        generalize ht' : (⟨t.kind, pre ++ List.replicate (c.items.length - pre.length) blank, off⟩ : S β) = t'
        have htl : t'.items.length = c.items.length := by rw [← ht']; simp; omega
        have htp : t' = { t' with items := pre ++ List.replicate (c.items.length - pre.length) blank } := by rw [← ht']
        rw [initS_eq, skipS_stateAt t' _ _ (by omega), Nat.zero_add]
        have hr := restLoop_eq f c t' htl k pre (List.replicate (c.items.length - pre.length) blank) (by rw [htl]; simp; omega) (by simp; simp at hk; omega)
        rw [← htp] at hr
        rw [hr]
        dsimp only
        have hnext : nextS c (stateAt c c.items.length) = stateAt c c.items.length := by
          unfold nextS stateAt initS
          simp [hlist]
        rw [hnext]
        obtain ⟨k', rfl⟩ : ∃ k', k = k' + 1 := ⟨k - 1, by omega⟩
        rw [stretchyLoop, finishedS_stateAt c (Nat.le_refl _), if_pos (by simp)]
        refine ⟨off, ?_⟩
        rw [← ht']
        simp [mapped]
      | cons b rest =>
        rw [if_neg (by simp at hl ⊢; omega), curS_stateAt, List.getElem?_eq_getElem (by omega)]
        dsimp only
        rw [setS_items t _ _ (by simp)]
        dsimp only
        rw [nextS_items t _ (by simp), nextS_stateAt c (by omega)]
        obtain ⟨o, ho⟩ := stretchyLoop_eq off blank f c t hok k (pre ++ [f c.items[pre.length]]) rest (by simp at hl ⊢; omega) (by simp; omega) (by simp at hk; omega)
        rw [List.length_append, List.length_singleton] at ho
        refine ⟨o, ?_⟩
        rw [show (pre ++ b :: rest).set pre.length (f c.items[pre.length]) = pre ++ [f c.items[pre.length]] ++ rest by simp, ho]
        rw [List.drop_eq_getElem_cons (i := pre.length) (by omega), mapped_cons]
        simp only [List.append_assoc, List.singleton_append]

/-! ### map-into with a sequence -/

/-- `map-into` stores the mapped elements in the target, except in two cases. -/
theorem map_into_partial (fuel off : Nat) (blank : β) (f : α → β) (tk : TKind) (t : S β) (ck : CKind) (c : S α) (ht : t.kind = tk.kind) (hc : c.kind = ck.kind)
    (h1 : ¬ (tk = .list ∧ ck = .otherArray)) (h2 : tk = .deque → ck = .list ∨ c.items.length ≤ t.items.length) (hf : t.items.length + c.items.length + 2 < fuel) :
    ∃ t', mapInto fuel off blank f tk t ck c = .ok t' ∧ t'.items = mapped tk.grows f t.items c.items := by
  have hrigid : ∃ t', rigidLoop f c (limitS t) fuel t (initS t) (initS c) = .ok t' ∧ t'.items = mapped false f t.items c.items := by
    have := rigidLoop_eq f c t fuel [] t.items (by simp) (by simp) (by omega)
    exact ⟨_, this, by simp⟩
  have harrays : rigidArrays f c.items (min t.items.length c.items.length) t.items 0 = some (mapped false f t.items c.items) := by
    have := rigidArrays_eq f c.items t.items [] (by simp)
    simpa using this
  have harray : rigidArray f t.items.length c.items t.items 0 = mapped false f t.items c.items := by
    have := rigidArray_eq f c.items [] t.items
    simpa using this
  cases tk with
  | list =>
    cases ck with
    | otherArray => exact absurd ⟨rfl, rfl⟩ h1
    | list => exact hrigid
    | objectVector => exact hrigid
    | deque => exact hrigid
  | array =>
    cases ck with
    | objectVector => exact ⟨{ t with items := mapped false f t.items c.items }, by unfold mapInto; dsimp only; rw [harrays], rfl⟩
    | otherArray => exact ⟨{ t with items := mapped false f t.items c.items }, by unfold mapInto; dsimp only; rw [harrays], rfl⟩
    | list => exact ⟨_, rfl, harray⟩
    | deque => exact ⟨_, rfl, harray⟩
  | stretchyArray =>
    refine ⟨_, rfl, ?_⟩
    have := stretchyArray_eq blank f c.items [] t.items
    simpa [TKind.grows] using this
  | deque =>
    obtain ⟨o, ho⟩ := stretchyLoop_eq off blank f c t ((h2 rfl).elim (fun h => Or.inl (by rw [hc, h]; rfl)) Or.inr) fuel [] t.items (by simp) (by simp) (by omega)
    exact ⟨_, ho, by simp [TKind.grows]⟩

example : ∃ t', mapInto 20 0 0 (fun n : Nat => n + 1) .list ⟨.list, [7, 8, 9], 0⟩ .deque ⟨.deque, [1, 2], 5⟩ = .ok t' ∧ t'.items = [2, 3, 9] :=
  ⟨⟨.list, [2, 3, 9], 0⟩, by decide, rfl⟩

example : mapInto 20 4 0 (fun n : Nat => n + 1) .deque ⟨.deque, [7], 5⟩ .list ⟨.list, [1, 2, 3], 0⟩ = .ok ⟨.deque, [2, 3, 4], 4⟩ := by decide

/-- A deque that is shorter than a vector: elements outside of the vector are read. -/
theorem map_into_deque_violated (fuel off : Nat) : mapInto (fuel + 9) off 0 (fun n : Nat => n) .deque ⟨.deque, [], 0⟩ .objectVector ⟨.vector, [5, 6], 0⟩ = .outside := by
  have e : ∀ k t st cst, st ≠ off + 2 → cst ≥ 2 → restLoop (fun n : Nat => n) ⟨.vector, [5, 6], 0⟩ (off + 2) (k + 1) t st cst = .outside ∨ t.kind ≠ .deque := by
    intro k t st cst h1 h2
    by_cases hk : t.kind = .deque
    · left
      rw [restLoop]
      have : finishedS t st (off + 2) = false := by unfold finishedS; rw [hk]; simpa using h1
      rw [if_neg (by simp [this])]
      have : curS (⟨.vector, [5, 6], 0⟩ : S Nat) cst = none := by unfold curS initS; simp; omega
      rw [this]
    · exact Or.inr hk
  show stretchyLoop off 0 (fun n : Nat => n) ⟨.vector, [5, 6], 0⟩ 0 (fuel + 9) ⟨.deque, [], 0⟩ 0 0 0 = .outside
  rw [show fuel + 9 = (fuel + 7) + 1 + 1 from rfl, stretchyLoop]
  have h1 : finishedS (⟨.vector, [5, 6], 0⟩ : S Nat) 0 (limitS (⟨.vector, [5, 6], 0⟩ : S Nat)) = false := by decide
  have h2 : finishedS (⟨.deque, [], 0⟩ : S Nat) 0 0 = true := by decide
  rw [if_neg (by simp [h1]), if_pos h2]
  have hres : resize off 0 (⟨.deque, [], 0⟩ : S Nat) 2 = ⟨.deque, [0, 0], off⟩ := rfl
  dsimp only [List.length_cons, List.length_nil]
  rw [hres]
  have hr := restLoop_eq (fun n : Nat => n) (⟨.vector, [5, 6], 0⟩ : S Nat) (⟨.deque, [0, 0], off⟩ : S Nat) rfl (fuel + 7 + 1) [] [0, 0] rfl (by simp)
  have hst : skipS (⟨.deque, [0, 0], off⟩ : S Nat) 0 (initS (⟨.deque, [0, 0], off⟩ : S Nat)) = stateAt (⟨.deque, [0, 0], off⟩ : S Nat) 0 := rfl
  rw [hst]
  have hr' : restLoop (fun n : Nat => n) (⟨.vector, [5, 6], 0⟩ : S Nat) (limitS (⟨.deque, [0, 0], off⟩ : S Nat)) (fuel + 7 + 1) ⟨.deque, [0, 0], off⟩ (stateAt (⟨.deque, [0, 0], off⟩ : S Nat) 0) 0
      = .ok (⟨.deque, [5, 6], off⟩, 2) := hr
  rw [hr']
  dsimp only
  rw [stretchyLoop]
  have h3 : finishedS (⟨.vector, [5, 6], 0⟩ : S Nat) (nextS (⟨.vector, [5, 6], 0⟩ : S Nat) 2) (limitS (⟨.vector, [5, 6], 0⟩ : S Nat)) = false := by decide
  have h4 : finishedS (⟨.deque, [5, 6], off⟩ : S Nat) 0 0 = true := by unfold finishedS; simp
  rw [if_neg (by simp [h3]), if_pos h4]
  have hres2 : resize off 0 (⟨.deque, [5, 6], off⟩ : S Nat) 2 = ⟨.deque, [5, 6], off⟩ := rfl
  dsimp only [List.length_cons, List.length_nil]
  rw [hres2]
  have hs : skipS (⟨.deque, [5, 6], off⟩ : S Nat) (0 + 1) (initS (⟨.deque, [5, 6], off⟩ : S Nat)) = off + 1 := rfl
  rw [hs]
  have hlim : limitS (⟨.deque, [5, 6], off⟩ : S Nat) = off + 2 := rfl
  rw [hlim]
  rcases e (fuel + 6) ⟨.deque, [5, 6], off⟩ (off + 1) (nextS (⟨.vector, [5, 6], 0⟩ : S Nat) 2) (by omega) (by decide) with h | h
  · rw [h]
  · exact absurd rfl h

/-- A list and a string (an array that is not an object vector): an error. -/
theorem map_into_list_violated (fuel off : Nat) : mapInto fuel off 0 (fun n : Nat => n) .list ⟨.list, [7], 0⟩ .otherArray ⟨.vector, [5], 0⟩ = .typeError := rfl

/-! ### map-into with a table -/

theorem keyed_skip (f : α → β) (k : Key) (v : α) (l : Assoc Key α) (i : Nat) (old : β) (h : k ≠ .int i) : keyed f ((k, v) :: l) i old = keyed f l i old := by
  unfold keyed assoc
  simp [h]

theorem keyed_here (f : α → β) (v : α) (l : Assoc Key α) (i : Nat) (old : β) : keyed f ((.int i, v) :: l) i old = f v := by
  unfold keyed assoc
  simp

theorem keyed_none (f : α → β) (l : Assoc Key α) (i : Nat) (old : β) (h : Key.int i ∉ l.map (·.1)) : keyed f l i old = old := by
  unfold keyed
  cases he : assoc l (.int i) with
  | none => rfl
  | some v => exact absurd (assoc_mem.2 ⟨v, he⟩) h

theorem distinct_cons {κ : Type} {p : κ × α} {l : Assoc κ α} (h : Distinct (p :: l)) : p.1 ∉ l.map (·.1) ∧ Distinct l := by
  unfold Distinct at h ⊢
  rw [List.map_cons, List.nodup_cons] at h
  exact h

theorem rigidArrayTable_eq (f : α → β) (size : Nat) : ∀ (coll : Assoc Key α) (t : List β), Distinct coll → t.length = size →
    (rigidArrayTable f size coll t).length = size ∧ ∀ (i : Nat) b, t[i]? = some b → (rigidArrayTable f size coll t)[i]? = some (keyed f coll i b)
  | [], t, _, h => ⟨h, fun i b hb => hb⟩
  | (.other n, v) :: l, t, hd, h => by
    rw [rigidArrayTable]
    obtain ⟨h1, h2⟩ := rigidArrayTable_eq f size l t (distinct_cons hd).2 h
    exact ⟨h1, fun i b hb => by rw [h2 i b hb, keyed_skip f _ _ _ _ _ (by simp)]⟩
  | (.int key, v) :: l, t, hd, h => by
    rw [rigidArrayTable]
    obtain ⟨hd1, hd2⟩ := distinct_cons hd
    by_cases hk : key < 0 ∨ key ≥ size
    · rw [if_pos hk]
      obtain ⟨h1, h2⟩ := rigidArrayTable_eq f size l t hd2 h
      refine ⟨h1, fun i b hb => ?_⟩
      have hi : i < size := by rw [← h]; exact (List.getElem?_eq_some_iff.mp hb).1
      rw [h2 i b hb, keyed_skip f _ _ _ _ _ (by simp; omega)]
    · rw [if_neg hk]
      obtain ⟨h1, h2⟩ := rigidArrayTable_eq f size l (t.set key.toNat (f v)) hd2 (by simpa using h)
      refine ⟨h1, fun i b hb => ?_⟩
      by_cases hi : key = i
      · subst hi
        have hlt : i < t.length := (List.getElem?_eq_some_iff.mp hb).1
        rw [h2 i (f v) (by simp [hlt]), keyed_here, keyed_none f l i _ hd1]
      · rw [h2 i b (by rw [List.getElem?_set_ne (by omega)]; exact hb), keyed_skip f _ _ _ _ _ (by simpa using hi)]

theorem growSet_length (blank : β) (t : List β) (i : Nat) (v : β) : (growSet blank t i v).length = max t.length (i + 1) := by
  unfold growSet
  by_cases h : i < t.length
  · rw [if_pos h]; simp; omega
  · rw [if_neg h]; simp; omega

theorem growSet_get (blank : β) (t : List β) (i : Nat) (v : β) (j : Nat) (h : j < max t.length (i + 1)) :
    (growSet blank t i v)[j]? = some (if j = i then v else (t[j]?).getD blank) := by
  unfold growSet
  by_cases hi : i < t.length
  · rw [if_pos hi]
    by_cases hj : j = i
    · subst hj; simp [hi]
    · rw [if_neg hj, List.getElem?_set_ne (by omega), List.getElem?_eq_getElem (by omega)]
      simp
  · rw [if_neg hi]
    by_cases hj : j = i
    · subst hj
      rw [if_pos rfl, List.getElem?_append_right (by simp; omega)]
      simp
      rw [show j - (t.length + (j - t.length)) = 0 by omega]
      rfl
    · rw [if_neg hj, List.getElem?_append_left (by simp; omega)]
      by_cases ht : j < t.length
      · rw [List.getElem?_append_left ht, List.getElem?_eq_getElem ht]
        simp
      · rw [List.getElem?_append_right (by omega), List.getElem?_replicate, if_pos (by omega), List.getElem?_eq_none (by omega)]
        simp

theorem maxKey_mono : ∀ (coll : Assoc Key α) (m : Int), m ≤ maxKey coll m
  | [], m => by simp [maxKey]
  | (.int k, _) :: l, m => by rw [maxKey]; have := maxKey_mono l (max k m); omega
  | (.other _, _) :: l, m => by rw [maxKey]; exact maxKey_mono l m

theorem maxKey_max : ∀ (coll : Assoc Key α) (a b : Int), maxKey coll (max a b) = max a (maxKey coll b)
  | [], a, b => by simp [maxKey]
  | (.int k, _) :: l, a, b => by
    rw [maxKey, maxKey, show max k (max a b) = max a (max k b) by omega, maxKey_max l]
  | (.other _, _) :: l, a, b => by rw [maxKey, maxKey, maxKey_max l]

theorem maxKey_ge : ∀ (coll : Assoc Key α) (m : Int) {k : Int}, Key.int k ∈ coll.map (·.1) → k ≤ maxKey coll m
  | [], _, _, h => by simp at h
  | (.int k', _) :: l, m, k, h => by
    rw [maxKey]
    rcases List.mem_cons.mp h with h | h
    · simp at h
      have := maxKey_mono l (max k' m)
      omega
    · exact maxKey_ge l _ h
  | (.other _, _) :: l, m, k, h => by
    rw [maxKey]
    rcases List.mem_cons.mp h with h | h
    · simp at h
    · exact maxKey_ge l _ h

theorem stretchyArrayTable_eq (blank : β) (f : α → β) : ∀ (coll : Assoc Key α) (t : List β), Distinct coll →
    (stretchyArrayTable blank f coll t).length = max t.length (maxKey coll (-1) + 1).toNat ∧
    ∀ (i : Nat), i < max t.length (maxKey coll (-1) + 1).toNat → (stretchyArrayTable blank f coll t)[i]? = some (keyed f coll i ((t[i]?).getD blank))
  | [], t, _ => by
    refine ⟨by simp [stretchyArrayTable, maxKey], fun i hi => ?_⟩
    have hi : i < t.length := by simp [maxKey] at hi; exact hi
    simp only [stretchyArrayTable]
    rw [List.getElem?_eq_getElem hi]
    rfl
  | (.other n, v) :: l, t, hd => by
    rw [stretchyArrayTable, maxKey]
    obtain ⟨h1, h2⟩ := stretchyArrayTable_eq blank f l t (distinct_cons hd).2
    exact ⟨h1, fun i hi => by rw [h2 i hi, keyed_skip f _ _ _ _ _ (by simp)]⟩
  | (.int key, v) :: l, t, hd => by
    rw [stretchyArrayTable, maxKey, maxKey_max]
    obtain ⟨hd1, hd2⟩ := distinct_cons hd
    have hmono := maxKey_mono l (-1)
    by_cases hk : key < 0
    · rw [if_pos hk, show max key (maxKey l (-1)) = maxKey l (-1) by omega]
      obtain ⟨h1, h2⟩ := stretchyArrayTable_eq blank f l t hd2
      exact ⟨h1, fun i hi => by rw [h2 i hi, keyed_skip f _ _ _ _ _ (by simp; omega)]⟩
    · rw [if_neg hk]
      obtain ⟨h1, h2⟩ := stretchyArrayTable_eq blank f l (growSet blank t key.toNat (f v)) hd2
      rw [growSet_length] at h1 h2
      refine ⟨by rw [h1]; omega, fun i hi => ?_⟩
      rw [h2 i (by omega)]
      by_cases hg : i < max t.length (key.toNat + 1)
      · rw [growSet_get _ _ _ _ _ hg, Option.getD_some]
        by_cases hi' : i = key.toNat
        · have : key = i := by omega
          subst this
          rw [if_pos hi', keyed_here, keyed_none f l i _ hd1]
        · rw [if_neg hi', keyed_skip f _ _ _ _ _ (by simp; omega)]
      · rw [List.getElem?_eq_none (by rw [growSet_length]; omega), List.getElem?_eq_none (by omega), keyed_skip f _ _ _ _ _ (by simp; omega)]

theorem storeFound_eq (f : α → β) (coll : Assoc Key α) (t : S β) (pre rest : List β) (b : β) :
    storeFound f coll { t with items := pre ++ b :: rest } (stateAt t pre.length) pre.length =
      some { t with items := pre ++ keyed f coll pre.length b :: rest } := by
  unfold storeFound keyed
  cases assoc coll (.int pre.length) with
  | none => rfl
  | some v =>
    dsimp only
    rw [setS_items t _ _ (by simp)]
    simp

/-- The first elements, as in the table. -/
def keyedFrom (f : α → β) (coll : Assoc Key α) : Nat → List β → List β
  | _, [] => []
  | i, b :: l => keyed f coll i b :: keyedFrom f coll (i + 1) l

theorem keyedFrom_length (f : α → β) (coll : Assoc Key α) : ∀ (l : List β) (i : Nat), (keyedFrom f coll i l).length = l.length
  | [], _ => rfl
  | _ :: l, i => by simp [keyedFrom, keyedFrom_length f coll l]

theorem keyedFrom_get (f : α → β) (coll : Assoc Key α) : ∀ (l : List β) (i j : Nat), (keyedFrom f coll i l)[j]? = (l[j]?).map (keyed f coll (i + j))
  | [], _, _ => by simp [keyedFrom]
  | b :: l, i, 0 => by simp [keyedFrom]
  | b :: l, i, j + 1 => by
    simp only [keyedFrom, List.getElem?_cons_succ]
    rw [keyedFrom_get f coll l, show i + 1 + j = i + (j + 1) by omega]

theorem tableLoop_eq (f : α → β) (coll : Assoc Key α) (t : S β) (max : Int) (hm : -1 ≤ max) : ∀ (k : Nat) (pre rest : List β), pre.length + rest.length = t.items.length → (pre.length : Int) ≤ max + 1 → rest.length < k →
    tableLoop f coll max (limitS t) k { t with items := pre ++ rest } (stateAt t pre.length) pre.length =
      .ok ({ t with items := pre ++ keyedFrom f coll pre.length (rest.take ((max + 1).toNat - pre.length)) ++ rest.drop ((max + 1).toNat - pre.length) },
        min (max + 1).toNat t.items.length)
  | 0, _, _, _, _, h => by omega
  | k + 1, pre, rest, hl, hp, hk => by
    have hfin : finishedS { t with items := pre ++ rest } (stateAt t pre.length) (limitS t) = decide (pre.length = t.items.length) := by
      have := finishedS_stateAt { t with items := pre ++ rest } (k := pre.length) (by simp)
      rw [limitS_items _ _ (by simpa using hl)] at this
      rw [show stateAt t pre.length = stateAt { t with items := pre ++ rest } pre.length from rfl, this]
      simp [hl]
    rw [tableLoop, hfin]
    by_cases h1 : (pre.length : Int) > max
    · rw [if_pos h1, show (max + 1).toNat - pre.length = 0 by omega, show min (max + 1).toNat t.items.length = pre.length by omega]
      simp [keyedFrom]
    · rw [if_neg h1]
      cases rest with
      | nil =>
        have h0 : pre.length = t.items.length := by simpa using hl
        rw [if_pos (by simpa using hl), show min (max + 1).toNat t.items.length = pre.length by omega]
        simp [keyedFrom]
      | cons b rest =>
        rw [if_neg (by simp at hl ⊢; omega), storeFound_eq]
        dsimp only
        rw [nextS_items t _ (by simp)]
        have := tableLoop_eq f coll t max hm k (pre ++ [keyed f coll pre.length b]) rest (by simp at hl ⊢; omega) (by simp; omega) (by simpa using hk)
        rw [List.length_append, List.length_singleton] at this
        rw [show pre ++ keyed f coll pre.length b :: rest = pre ++ [keyed f coll pre.length b] ++ rest by simp, this,
          show (max + 1).toNat - pre.length = ((max + 1).toNat - (pre.length + 1)) + 1 by omega, List.take_succ_cons, List.drop_succ_cons, keyedFrom]
        simp

theorem tableRest_eq (f : α → β) (coll : Assoc Key α) (t : S β) (max : Int) (hm : t.items.length = (max + 1).toNat) : ∀ (k : Nat) (pre rest : List β), pre.length + rest.length = t.items.length → rest.length < k →
    tableRest f coll max k { t with items := pre ++ rest } (stateAt t pre.length) pre.length = .ok { t with items := pre ++ keyedFrom f coll pre.length rest }
  | 0, _, _, _, h => by omega
  | k + 1, pre, [], hl, hk => by
    rw [tableRest, if_pos (by simp at hl; omega)]
    rfl
  | k + 1, pre, b :: rest, hl, hk => by
    rw [tableRest, if_neg (by simp at hl; omega), storeFound_eq]
    dsimp only
    rw [nextS_items t _ (by simp)]
    have := tableRest_eq f coll t max hm k (pre ++ [keyed f coll pre.length b]) rest (by simp at hl ⊢; omega) (by simpa using hk)
    rw [List.length_append, List.length_singleton] at this
    rw [show pre ++ keyed f coll pre.length b :: rest = pre ++ [keyed f coll pre.length b] ++ rest by simp, this, keyedFrom]
    simp

/-- `map-into` with a table: an element whose index is a key of the table becomes the mapped element of the
    table, the others are as before; a target that can grow has room for the greatest key then, and the
    elements between are `#f`. -/
theorem map_into_table_partial (fuel off : Nat) (blank : β) (f : α → β) (tk : TKind) (t : S β) (coll : Assoc Key α) (hd : Distinct coll) (h1 : tk ≠ .list)
    (hf : t.items.length + (maxKey coll (-1) + 1).toNat < fuel) :
    ∃ t', mapIntoTable fuel off blank f tk t coll = .ok t' ∧
      t'.items.length = (if tk.grows then max t.items.length (maxKey coll (-1) + 1).toNat else t.items.length) ∧
      ∀ (i : Nat), i < t'.items.length → t'.items[i]? = some (keyed f coll i ((t.items[i]?).getD blank)) := by
  have hmono := maxKey_mono coll (-1)
  cases tk with
  | list => exact absurd rfl h1
  | array =>
    obtain ⟨e1, e2⟩ := rigidArrayTable_eq f t.items.length coll t.items hd rfl
    refine ⟨_, rfl, by simpa [TKind.grows] using e1, fun i hi => ?_⟩
    dsimp only at hi ⊢
    rw [e1] at hi
    rw [e2 i t.items[i] (List.getElem?_eq_getElem hi), List.getElem?_eq_getElem hi]
    rfl
  | stretchyArray =>
    obtain ⟨e1, e2⟩ := stretchyArrayTable_eq blank f coll t.items hd
    refine ⟨_, rfl, by simpa [TKind.grows] using e1, fun i hi => ?_⟩
    dsimp only at hi ⊢
    rw [e1] at hi
    exact e2 i hi
  | deque =>
    have hloop := tableLoop_eq f coll t (maxKey coll (-1)) hmono fuel [] t.items (by simp) (by simp; omega) (by omega)
    simp only [List.nil_append, List.length_nil, Nat.sub_zero] at hloop
    unfold mapIntoTable stretchyTable
    dsimp only
    rw [initS_eq, show (⟨t.kind, t.items, t.first⟩ : S β) = t from rfl] at *
    rw [hloop]
    dsimp only
    generalize hn : (maxKey coll (-1) + 1).toNat = n at *
    by_cases hle : n ≤ t.items.length
    · rw [if_pos (by omega)]
      have hlen : (keyedFrom f coll 0 (t.items.take n) ++ t.items.drop n).length = t.items.length := by
        rw [List.length_append, keyedFrom_length, List.length_take, List.length_drop]; omega
      refine ⟨_, rfl, ?_, fun i hi => ?_⟩
      · dsimp only
        rw [hlen]
        simp [TKind.grows]; omega
      · dsimp only at hi ⊢
        rw [hlen] at hi
        rw [List.getElem?_eq_getElem hi, Option.getD_some]
        by_cases hin : i < n
        · rw [List.getElem?_append_left (by rw [keyedFrom_length, List.length_take]; omega), keyedFrom_get, List.getElem?_take_of_lt hin,
            List.getElem?_eq_getElem hi, Nat.zero_add]
          rfl
        · rw [List.getElem?_append_right (by rw [keyedFrom_length, List.length_take]; omega), keyedFrom_length, List.length_take, List.getElem?_drop,
            show n + (i - min n t.items.length) = i by omega, List.getElem?_eq_getElem hi]
          unfold keyed
          cases ha : assoc coll (.int i) with
          | none => rfl
          | some v =>
            have := maxKey_ge coll (-1) (assoc_mem.2 ⟨v, ha⟩)
            omega
    · rw [if_neg (by omega), List.take_of_length_le (by omega), List.drop_of_length_le (by omega), List.append_nil, show min n t.items.length = t.items.length by omega]
      generalize hpre : keyedFrom f coll 0 t.items = pre
      have hpl : pre.length = t.items.length := by rw [← hpre, keyedFrom_length]
      have hres : resize off blank { t with items := pre } n = ⟨t.kind, pre ++ List.replicate (n - pre.length) blank, off⟩ := by
        unfold resize
        dsimp only
        rw [List.take_of_length_le (by omega)]
      rw [hres]
      generalize ht' : (⟨t.kind, pre ++ List.replicate (n - pre.length) blank, off⟩ : S β) = t'
      have htl : t'.items.length = n := by rw [← ht']; simp; omega
      have htp : t' = { t' with items := pre ++ List.replicate (n - pre.length) blank } := by rw [← ht']
      have hr := tableRest_eq f coll t' (maxKey coll (-1)) (by rw [htl, hn]) fuel pre (List.replicate (n - pre.length) blank) (by rw [htl]; simp; omega) (by simp; omega)
      rw [← htp] at hr
      rw [initS_eq, skipS_stateAt t' _ _ (by omega), Nat.zero_add, ← hpl, hr]
      refine ⟨_, rfl, ?_, fun i hi => ?_⟩
      · dsimp only
        rw [List.length_append, keyedFrom_length, List.length_replicate]
        simp [TKind.grows]; omega
      · dsimp only at hi ⊢
        rw [List.length_append, keyedFrom_length, List.length_replicate] at hi
        by_cases hin : i < pre.length
        · rw [List.getElem?_append_left hin, ← hpre, keyedFrom_get, List.getElem?_eq_getElem (by omega), Nat.zero_add]
          rfl
        · rw [List.getElem?_append_right (by omega), keyedFrom_get, List.getElem?_replicate, if_pos (by omega), List.getElem?_eq_none (l := t.items) (by omega),
            show pre.length + (i - pre.length) = i by omega]
          rfl

example : mapIntoTable 20 3 0 (fun n : Nat => n + 1) .deque ⟨.deque, [7, 8], 5⟩ [(.int 3, 1), (.other 0, 2), (.int 0, 4)] = .ok ⟨.deque, [5, 8, 0, 2], 3⟩ := by decide

/-- A list and a table with a key that is an index of the list: nothing is stored. -/
theorem map_into_table_violated (fuel off : Nat) : mapIntoTable fuel off 0 (fun n : Nat => n) .list ⟨.list, [7], 0⟩ [(.int 0, 5)] = .ok ⟨.list, [7], 0⟩ ∧
    keyed (fun n : Nat => n) [(.int 0, 5)] 0 7 = 5 := ⟨rfl, rfl⟩

end Verif.Iter
