import Verif.Arrays.Lemmas

/-
C137: an array is one variable for every list of subscripts.
-/

namespace Verif.Arrays

open Spec

variable {α : Type}

/-- The arguments of a call are integers. -/
def Op.words : Op α → Prop
  | .aref s | .arefSetter _ s => ∀ i ∈ s, isWord i = true
  | .element i | .elementSetter _ i => isWord i = true

theorem run_eq : ∀ (ops : List (Op α)) {a : Arr α} {f : Vars α}, Wf a → Holds a f → (∀ o ∈ ops, o.words) →
    run a ops = Spec.run a.dims f ops
  | [], _, _, _, _, _ => rfl
  | o :: ops, a, f, h, hf, ho => by
    have hw : o.words := ho o (by simp)
    have hs := step_spec h hf o (by cases o <;> exact hw)
    simp only [run, Spec.run]
    rw [hs.1, run_eq ops hs.2.1 hs.2.2.2 (fun p hp => ho p (by simp [hp])), hs.2.2.1]

/-- C137 (proved for arrays of at least one dimension and no negative dimension): whatever is read and written, by
subscripts with `aref` and by number with `element`, each list of subscripts within the dimensions is a variable of its
own, initially holding the fill; the variables are numbered with the last subscript varying fastest; a wrong number of
subscripts and a subscript outside of its dimension are errors that change nothing; no call overflows and none touches
anything outside of the storage of the array. -/
theorem array_is_variables_partial {dims : List Int} {fill : α} {a : Arr α} (h : make dims fill = .ok a)
    (hne : dims ≠ []) (hd : ∀ d ∈ dims, 0 ≤ d ∧ isWord d = true) (ops : List (Op α)) (ho : ∀ o ∈ ops, o.words) :
    run a ops = Spec.run dims (fun _ => fill) ops := by
  obtain ⟨hw, hdims, he⟩ := make_wf h hne hd
  rw [← hdims]
  refine run_eq ops hw ?_ ho
  have hl := hw.length
  have ht := tuples_length hw.nn
  simp only [Holds, he, hdims] at *
  rw [List.map_const']
  congr 1
  omega

example : (make [2, 3] 'x').toOption = some ⟨false, [2, 3], ['x', 'x', 'x', 'x', 'x', 'x']⟩ := by decide +kernel

example : (make [2, 3] 'x').toOption.map (fun a => run a
      [.arefSetter 'a' [1, 0], .aref [1, 0], .aref [0, 1], .element 3, .elementSetter 'b' 1, .aref [0, 1], .aref [2, 0],
       .aref [0, 0, 0], .element 6])
    = some [.value 'a', .value 'a', .value 'x', .value 'a', .value 'b', .value 'b', .signals .range, .signals .rank,
        .signals .range] := by decide +kernel

/-- No access by subscripts leaves the storage: `array_is_variables_partial` says so, as the specification knows no such
outcome. -/
theorem never_outside_partial {dims : List Int} {fill : α} {a : Arr α} (h : make dims fill = .ok a)
    (hne : dims ≠ []) (hd : ∀ d ∈ dims, 0 ≤ d ∧ isWord d = true) (ops : List (Op α)) (ho : ∀ o ∈ ops, o.words) (i : Int) :
    Out.outside i ∉ run a ops := by
  rw [array_is_variables_partial h hne hd ops ho]
  generalize (fun _ => fill : Vars α) = f
  clear h ho a
  induction ops generalizing f with
  | nil => simp [Spec.run]
  | cons o ops ih =>
    simp only [Spec.run, List.mem_cons, not_or]
    refine ⟨?_, ih _⟩
    cases o with
    | aref s => simp only [Spec.step]; cases wrong dims s <;> simp
    | arefSetter v s => simp only [Spec.step]; cases wrong dims s <;> simp
    | element j => simp only [Spec.step]; cases numbered dims j <;> simp
    | elementSetter v j => simp only [Spec.step]; cases numbered dims j <;> simp

/-- `size` is the product of the dimensions. -/
theorem size_is_volume_partial {dims : List Int} {fill : α} {a : Arr α} (h : make dims fill = .ok a)
    (hne : dims ≠ []) (hd : ∀ d ∈ dims, 0 ≤ d ∧ isWord d = true) : size a = volume dims := by
  obtain ⟨hw, hdims, _⟩ := make_wf h hne hd
  rw [← hdims]
  exact hw.length

/-- `row-major-index` of an array that is not a vector: the number of the variable of these subscripts, or an error
exactly when they are wrong. -/
theorem row_major_index {dims subs : List Int} {fill : α} {a : Arr α} (h : make dims fill = .ok a)
    (hne : dims ≠ []) (hd : ∀ d ∈ dims, 0 ≤ d ∧ isWord d = true) (hs : ∀ i ∈ subs, isWord i = true) :
    (∀ e, wrong dims subs = some e → rowMajorIndex dims subs = .error e) ∧
    (wrong dims subs = none → ∃ k, rowMajorIndex dims subs = .ok k ∧ numbered dims k = some subs) := by
  obtain ⟨hw, hdims, _⟩ := make_wf h hne hd
  obtain ⟨n, hp⟩ := hw.prod
  rw [hdims] at hp
  rw [rowMajorIndex_eq hp hd hs]
  simp only [wrong]
  by_cases hl : subs.length = dims.length
  · cases hin : within dims subs with
    | true =>
      have hb := pos_bounds hin
      have hn : ¬ pos dims subs < 0 := by omega
      refine ⟨by simp [hl], fun _ => ⟨pos dims subs, by simp [hl], ?_⟩⟩
      simp only [numbered, hn, if_false]
      exact tuples_pos (fun d hm => (hd d hm).1) hin
    | false => simp [hl]
  · simp [hl]

/-- Every number below the size is the index of exactly one list of subscripts. -/
theorem row_major_index_bijective {dims : List Int} {fill : α} {a : Arr α} (h : make dims fill = .ok a)
    (hne : dims ≠ []) (hd : ∀ d ∈ dims, 0 ≤ d ∧ isWord d = true) {k : Int} (h0 : 0 ≤ k) (h1 : k < size a) :
    ∃ subs, (rowMajorIndex dims subs = .ok k ∧ ∀ i ∈ subs, isWord i = true) ∧
      ∀ t, (∀ i ∈ t, isWord i = true) → rowMajorIndex dims t = .ok k → t = subs := by
  obtain ⟨hw, hdims, _⟩ := make_wf h hne hd
  obtain ⟨n, hp⟩ := hw.prod
  rw [hdims] at hp
  have hnn : ∀ d ∈ dims, 0 ≤ d := fun d hm => (hd d hm).1
  rw [size_is_volume_partial h hne hd] at h1
  have hl := tuples_length hnn
  have hk : k.toNat < (tuples dims).length := by omega
  have hg := List.getElem?_eq_getElem hk
  have hpt := pos_tuples hnn hg
  have hword : ∀ {ds is : List Int}, (∀ d ∈ ds, 0 ≤ d ∧ isWord d = true) → within ds is = true →
      ∀ i ∈ is, isWord i = true := by
    intro ds
    induction ds with
    | nil => intro is _ hwi i hi; cases is <;> simp_all [within]
    | cons d ds ih =>
      intro is hds hwi i hi
      cases is with
      | nil => simp at hi
      | cons j js =>
        simp only [within, Bool.and_eq_true, decide_eq_true_eq] at hwi
        rcases List.mem_cons.mp hi with rfl | hi
        · have := (hds d (by simp)).2
          rw [isWord_iff] at this ⊢
          omega
        · exact ih (fun e he => hds e (by simp [he])) hwi.2 i hi
  have hws := hword hd hpt.1
  refine ⟨(tuples dims)[k.toNat], ⟨?_, hws⟩, ?_⟩
  · rw [rowMajorIndex_eq hp hd hws]
    simp [within_length hpt.1, hpt.1]
    omega
  · intro t ht hr
    rw [rowMajorIndex_eq hp hd ht] at hr
    split at hr
    · simp at hr
    · split at hr
      · rename_i hwt
        simp only [Except.ok.injEq] at hr
        exact pos_injective hwt hpt.1 (by omega)
      · simp at hr

/-- The index grows with the subscripts in the order of the dictionary. -/
theorem row_major_index_order {dims s t : List Int} {fill : α} {a : Arr α} {j k : Int} (h : make dims fill = .ok a)
    (hne : dims ≠ []) (hd : ∀ d ∈ dims, 0 ≤ d ∧ isWord d = true) (hs : ∀ i ∈ s, isWord i = true)
    (ht : ∀ i ∈ t, isWord i = true) (hj : rowMajorIndex dims s = .ok j) (hk : rowMajorIndex dims t = .ok k) :
    j < k ↔ s < t := by
  obtain ⟨hw, hdims, _⟩ := make_wf h hne hd
  obtain ⟨n, hp⟩ := hw.prod
  rw [hdims] at hp
  rw [rowMajorIndex_eq hp hd hs] at hj
  rw [rowMajorIndex_eq hp hd ht] at hk
  split at hj
  · simp at hj
  split at hj
  · rename_i hw1
    split at hk
    · simp at hk
    split at hk
    · rename_i hw2
      simp only [Except.ok.injEq] at hj hk
      rw [← hj, ← hk]
      exact pos_lt hw1 hw2
    · simp at hk
  · simp at hj

example : (rowMajorIndex [2, 3, 4] [1, 0, 2]).toOption = some 14 ∧ (rowMajorIndex [2, 3, 4] [1, 2, 0]).toOption = some 20 ∧
    ([1, 0, 2] : List Int) < [1, 2, 0] := by decide +kernel

/-- The array after calls. -/
def after (a : Arr α) : List (Op α) → Arr α
  | [] => a
  | o :: os => after (step a o).2 os

theorem copyLoop_eq {a : Arr α} (hw : isWord a.elems.length = true) : ∀ (n k : Nat) (new : Arr α),
    k + n = a.elems.length → new.elems.length = a.elems.length → new.elems.take k = a.elems.take k →
    copyLoop a n k new = .value { new with elems := a.elems }
  | 0, k, new, h, hl, ht => by
    simp only [Nat.add_zero] at h
    rw [h, List.take_length, ← hl, List.take_length] at ht
    simp [copyLoop, ← ht]
  | n + 1, k, new, h, hl, ht => by
    have hk : k < a.elems.length := by omega
    have hwk : isWord (k : Int) = true := by rw [isWord_iff] at hw ⊢; omega
    have hc : rangeCheck (k : Int) a.elems.length = true := by
      rw [rangeCheck_nonneg hwk hw (by omega)]
      simp
      omega
    have h1 : element a (k : Int) = .value a.elems[k] := by
      simp only [element, hc, if_true]
      refine slotGet_at (by omega) ?_
      simp [hk]
    have h2 : elementSetter a.elems[k] new (k : Int)
        = (.value a.elems[k], { new with elems := new.elems.set k a.elems[k] }) := by
      have : (0 : Int) ≤ k ∧ (k : Int) < new.elems.length := by omega
      simp only [elementSetter, this, and_self, if_true]
      rw [slotSet_at this.1 this.2]
      simp
    simp only [copyLoop, h1, h2]
    have := copyLoop_eq hw n (k + 1) { new with elems := new.elems.set k a.elems[k] } (by omega) (by simpa using hl) (by
      have hk' : k < (new.elems.set k a.elems[k]).length := by simp; omega
      simp only
      rw [List.take_succ_eq_append_getElem hk', List.take_succ_eq_append_getElem hk, List.take_set_of_le (by omega), ht]
      simp)
    simpa using this

theorem after_wf : ∀ (ops : List (Op α)) {a : Arr α} {f : Vars α}, Wf a → Holds a f → (∀ o ∈ ops, o.words) →
    Wf (after a ops) ∧ (after a ops).dims = a.dims ∧ (after a ops).isVector = a.isVector
  | [], _, _, h, _, _ => ⟨h, rfl, rfl⟩
  | o :: ops, a, f, h, hf, ho => by
    have hw : o.words := ho o (by simp)
    have hs := step_spec h hf o (by cases o <;> exact hw)
    have ih := after_wf ops hs.2.1 hs.2.2.2 (fun p hp => ho p (by simp [hp]))
    refine ⟨ih.1, ih.2.1.trans hs.2.2.1, ih.2.2.trans ?_⟩
    have h1 := h.one
    have h2 := hs.2.1.one
    rw [hs.2.2.1] at h2
    rw [Bool.eq_iff_iff, h1, h2]

/-- A shallow copy of an array with elements is an array of the same dimensions and elements, whatever was done to
the array before. -/
theorem shallow_copy_equal_partial {dims : List Int} {fill : α} {a : Arr α} (h : make dims fill = .ok a)
    (hne : dims ≠ []) (h1 : dims.length ≠ 1) (hd : ∀ d ∈ dims, 0 ≤ d ∧ isWord d = true) (ops : List (Op α))
    (ho : ∀ o ∈ ops, o.words) (hs : size a ≠ 0) :
    shallowCopy (after a ops) = .value (after a ops) := by
  obtain ⟨hw, hdims, he⟩ := make_wf h hne hd
  have hf : Holds a (fun _ => fill) := by
    have hl := hw.length
    have ht := tuples_length hw.nn
    simp only [Holds, he, hdims] at *
    rw [List.map_const']
    congr 1
    omega
  obtain ⟨wb, db, vb⟩ := after_wf ops hw hf ho
  rw [hdims] at db
  generalize after a ops = b at *
  have hv : b.isVector = false := by
    rw [vb, Bool.eq_false_iff, ne_eq, hw.one, hdims]
    exact h1
  have hlen := wb.length
  have hsz := size_is_volume_partial h hne hd
  rw [db] at hlen
  have hpos : 0 < b.elems.length := by
    have : (b.elems.length : Int) ≠ 0 := by rw [hlen, ← hsz]; exact hs
    omega
  have hz : ¬ size b = 0 := by simp only [size]; omega
  have hword := length_word wb
  have hc : rangeCheck 0 b.elems.length = true := by
    rw [rangeCheck_nonneg (by decide) hword (by omega)]
    simp
    omega
  have h0 : element b 0 = .value b.elems[0] := by
    simp only [element, hc, if_true]
    exact slotGet_at (by omega) (by simp [hpos])
  obtain ⟨n, hp⟩ := wb.prod
  rw [db] at hp
  have hn := product_ok hp
  rw [Int.one_mul] at hn
  have hnn : ¬ n < 0 := by omega
  have hne0 : ¬ dims.length = 0 := by simpa using hne
  have hm : make dims b.elems[0] = .ok ⟨false, dims, List.replicate n.toNat b.elems[0]⟩ := by
    simp [make, h1, sizeFromDimensions, hne, hp, Except.bind, allocate, hnn, Except.map]
  simp only [shallowCopy, hz, if_false, h0, db, hm]
  have := copyLoop_eq hword b.elems.length 0 ⟨false, dims, List.replicate n.toNat b.elems[0]⟩ (by omega)
    (by simp; omega) (by simp)
  simp only [Int.natCast_zero] at this
  rw [this, ← hv, ← db]

example : (make [2, 2] 'x').toOption.map (fun a => shallowCopy (after a [.arefSetter 'a' [1, 0]]))
    = some (.value ⟨false, [2, 2], ['x', 'x', 'a', 'x']⟩) := by decide +kernel

/-- The full property is false: an array of no dimensions has no storage, and yet `aref` and `aref-setter` with no
subscripts, which are within its dimensions, read and write the word after it. -/
theorem no_dimensions_violated :
    ∃ a : Arr Char, (make [] 'x').toOption = some a ∧ wrong [] [] = none ∧ aref a [] = .outside 0 ∧
      (arefSetter 'y' a []).1 = .outside 0 ∧ size a ≠ volume [] :=
  ⟨⟨false, [], []⟩, by decide +kernel⟩

/-- Nor does it hold for arrays of two negative dimensions, which `make` accepts: their bounds are compared as unsigned
words, and any subscript that is not negative passes. -/
theorem negative_dimensions_violated :
    ∃ a : Arr Char, (make [-2, -3] 'x').toOption = some a ∧ size a = 6 ∧ aref a [0, 1000] = .outside 1000 ∧
      (arefSetter 'y' a [7, 0]).1 = .outside (-21) := ⟨⟨false, [-2, -3], List.replicate 6 'x'⟩, by decide +kernel⟩

/-- An empty array cannot be copied. -/
theorem empty_copy_violated :
    ∃ a : Arr Char, (make [0, 3] 'x').toOption = some a ∧ shallowCopy a = .signals .type :=
  ⟨⟨false, [0, 3], []⟩, by decide +kernel⟩

/-- `row-major-index` of a vector accepts a subscript outside of it. -/
theorem vector_index_violated : wrong [2] [7] = some .range ∧ (vectorIndex [7]).toOption = some 7 := by decide +kernel

end Verif.Arrays
