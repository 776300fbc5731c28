import Verif.Arrays.Spec

/- Proofs about the index of an array, apart from the properties themselves. -/

namespace Verif.Arrays

open Spec

variable {α : Type}

theorem isWord_iff (i : Int) : isWord i = true ↔ -2305843009213693952 ≤ i ∧ i ≤ 2305843009213693951 := by
  simp [isWord]

theorem tag_toNat (i : Int) : ((tag i).toNat : Int) = (4 * i + 1) % 18446744073709551616 := by
  simp only [tag, BitVec.toNat_ofInt]
  omega

theorem rangeCheck_nonneg {i d : Int} (hi : isWord i = true) (hd : isWord d = true) (h : 0 ≤ d) :
    rangeCheck i d = decide (0 ≤ i ∧ i < d) := by
  rw [isWord_iff] at hi hd
  have h1 := tag_toNat i
  have h2 := tag_toNat d
  simp only [rangeCheck, BitVec.ult]
  rw [decide_eq_decide]
  omega

theorem rangeCheck_neg {i d : Int} (hi : isWord i = true) (hd : isWord d = true) (h : d < 0) :
    rangeCheck i d = decide (0 ≤ i ∨ i < d) := by
  rw [isWord_iff] at hi hd
  have h1 := tag_toNat i
  have h2 := tag_toNat d
  simp only [rangeCheck, BitVec.ult]
  rw [decide_eq_decide]
  omega

theorem mulW_ok {a b : Int} (h : isWord (a * b) = true) : mulW a b = .ok (a * b) := by simp [mulW, h]
theorem addW_ok {a b : Int} (h : isWord (a + b) = true) : addW a b = .ok (a + b) := by simp [addW, h]

/-- The position of subscripts, by recursion from the left. -/
def pos : List Int → List Int → Int
  | _ :: ds, i :: is => i * volume ds + pos ds is
  | _, _ => 0

theorem volume_nonneg : ∀ {ds : List Int}, (∀ d ∈ ds, 0 ≤ d) → 0 ≤ volume ds
  | [], _ => by simp [volume]
  | d :: ds, h => by
    simp only [volume]
    exact Int.mul_nonneg (h d (by simp)) (volume_nonneg fun e he => h e (by simp [he]))

theorem pos_bounds : ∀ {ds is : List Int}, within ds is = true → 0 ≤ pos ds is ∧ pos ds is < volume ds
  | [], [], _ => by simp [pos, volume]
  | [], _ :: _, h => by simp [within] at h
  | _ :: _, [], h => by simp [within] at h
  | d :: ds, i :: is, h => by
    simp only [within, Bool.and_eq_true, decide_eq_true_eq] at h
    obtain ⟨⟨h0, h1⟩, h2⟩ := h
    have ih := pos_bounds h2
    simp only [pos, volume]
    have hv : 0 < volume ds := by omega
    constructor
    · have := Int.mul_nonneg h0 (Int.le_of_lt hv)
      omega
    · have : (i + 1) * volume ds ≤ d * volume ds := Int.mul_le_mul_of_nonneg_right (by omega) (Int.le_of_lt hv)
      rw [Int.add_mul] at this
      omega

theorem within_length : ∀ {ds is : List Int}, within ds is = true → is.length = ds.length
  | [], [], _ => rfl
  | [], _ :: _, h => by simp [within] at h
  | _ :: _, [], h => by simp [within] at h
  | d :: ds, i :: is, h => by
    simp only [within, Bool.and_eq_true] at h
    simp [within_length h.2]

theorem product_ok : ∀ {ds : List Int} {p n : Int}, product p ds = .ok n → n = p * volume ds
  | [], p, n, h => by
    simp only [product, Except.ok.injEq] at h
    simp [volume, h]
  | d :: ds, p, n, h => by
    simp only [product, mulW] at h
    split at h
    · simp only [Except.bind] at h
      rw [product_ok h, volume, Int.mul_assoc]
    · simp [Except.bind] at h

/-- The loop finds the position, without overflow, if the product of the dimensions could be computed. -/
theorem generalLoop_eq : ∀ {ds is : List Int} {sum p n : Int}, product p ds = .ok n → (∀ d ∈ ds, 0 ≤ d ∧ isWord d = true) →
    (∀ i ∈ is, isWord i = true) → 0 ≤ sum → sum < p → is.length = ds.length →
    generalLoop sum ds is = if within ds is then .ok (sum * volume ds + pos ds is) else .error .range
  | [], [], sum, p, n, _, _, _, _, _, _ => by simp [generalLoop, within, volume, pos]
  | [], _ :: _, _, _, _, _, _, _, _, _, h => by simp at h
  | _ :: _, [], _, _, _, _, _, _, _, _, h => by simp at h
  | d :: ds, i :: is, sum, p, n, hp, hd, hi, h0, h1, hl => by
    obtain ⟨hd0, hdw⟩ := hd d (by simp)
    have hiw := hi i (by simp)
    simp only [generalLoop, rangeCheck_nonneg hiw hdw hd0, within]
    by_cases hr : 0 ≤ i ∧ i < d
    · simp only [hr, and_self, decide_true, if_true, Bool.true_and]
      simp only [product, mulW] at hp
      split at hp
      · rename_i hpw
        simp only [Except.bind] at hp
        rw [isWord_iff] at hpw
        have e1 : (sum + 1) * d ≤ p * d := Int.mul_le_mul_of_nonneg_right (by omega) hd0
        have e2 : 0 ≤ sum * d := Int.mul_nonneg h0 hd0
        rw [Int.add_mul] at e1
        have w1 : isWord (sum * d) = true := by rw [isWord_iff]; omega
        have w2 : isWord (sum * d + i) = true := by rw [isWord_iff]; omega
        rw [mulW_ok w1]
        simp only [Except.bind, addW_ok w2]
        rw [generalLoop_eq hp (fun e he => hd e (by simp [he])) (fun e he => hi e (by simp [he])) (by omega) (by omega)
          (by simpa using hl)]
        simp only [volume, pos]
        split
        · congr 1
          rw [Int.add_mul, Int.mul_assoc, Int.add_assoc]
        · rfl
      · simp [Except.bind] at hp
    · simp [hr]

theorem rowMajorIndex_eq {ds is : List Int} {n : Int} (hp : product 1 ds = .ok n)
    (hd : ∀ d ∈ ds, 0 ≤ d ∧ isWord d = true) (hi : ∀ i ∈ is, isWord i = true) :
    rowMajorIndex ds is
      = if is.length ≠ ds.length then .error .rank
        else if within ds is then .ok (pos ds is) else .error .range := by
  simp only [rowMajorIndex]
  by_cases hl : is.length = ds.length
  · have hl' := hl.symm
    rw [if_neg (by simp [hl']), if_neg (by simp [hl])]
    have gen := generalLoop_eq (sum := 0) hp hd hi (by omega) (by omega) hl
    rw [Int.zero_mul, Int.zero_add] at gen
    split
    · rename_i d0 d1 i0 i1
      rw [← gen]
      simp only [twoIndex, generalLoop]
      have hd0 := hd d0 (by simp)
      have hd1 := hd d1 (by simp)
      have hi0 := hi i0 (by simp)
      have hi1 := hi i1 (by simp)
      by_cases c0 : rangeCheck i0 d0 = true
      · have z : mulW 0 d0 = .ok 0 := by simp [mulW, isWord]
        have z' : addW 0 i0 = .ok i0 := by simp [addW, hi0]
        simp only [c0, Bool.true_and, if_true, z, z', Except.bind]
        by_cases c1 : rangeCheck i1 d1 = true
        · simp only [c1, if_true]
          cases mulW i0 d1 with
          | error e => rfl
          | ok p => cases h : addW p i1 <;> simp [h]
        · simp only [c1, Bool.false_eq_true, if_false]
      · simp [c0]
    · exact gen
  · have hl' : ¬ ds.length = is.length := fun h => hl h.symm
    simp [hl, hl']

theorem flatMap_getElem {β γ : Type} (f : β → List γ) (n : Nat) : ∀ (l : List β), (∀ b ∈ l, (f b).length = n) →
    ∀ (i r : Nat), r < n → (l.flatMap f)[i * n + r]? = l[i]?.bind (fun b => (f b)[r]?)
  | [], _, i, r, _ => by simp
  | b :: l, h, 0, r, hr => by
    have hb := h b (by simp)
    simp only [List.flatMap_cons, Nat.zero_mul, Nat.zero_add]
    rw [List.getElem?_append_left (by omega)]
    simp
  | b :: l, h, i + 1, r, hr => by
    have hb := h b (by simp)
    simp only [List.flatMap_cons]
    have e : (i + 1) * n = n + i * n := by rw [Nat.add_mul]; omega
    rw [List.getElem?_append_right (by omega)]
    have e2 : (i + 1) * n + r - (f b).length = i * n + r := by omega
    rw [e2, flatMap_getElem f n l (fun c hc => h c (by simp [hc])) i r hr]
    simp

theorem tuples_length : ∀ {ds : List Int}, (∀ d ∈ ds, 0 ≤ d) → ((tuples ds).length : Int) = volume ds
  | [], _ => by simp [tuples, volume]
  | d :: ds, h => by
    have ih := tuples_length (fun e he => h e (by simp [he]) : ∀ e ∈ ds, 0 ≤ e)
    have hd : 0 ≤ d := h d (by simp)
    have : (tuples (d :: ds)).length = d.toNat * (tuples ds).length := by
      simp only [tuples, List.length_flatMap, List.length_map, List.map_const', List.sum_replicate_nat, List.length_range]
    rw [this, volume, ← ih, Int.natCast_mul, Int.toNat_of_nonneg hd]

theorem mem_tuples : ∀ {ds is : List Int}, is ∈ tuples ds ↔ within ds is = true
  | [], [] => by simp [tuples, within]
  | [], _ :: _ => by simp [tuples, within]
  | d :: ds, [] => by simp [tuples, within]
  | d :: ds, i :: is => by
    simp only [tuples, List.mem_flatMap, List.mem_range, List.mem_map, List.cons.injEq, within, Bool.and_eq_true,
      decide_eq_true_eq]
    constructor
    · rintro ⟨k, hk, t, ht, rfl, rfl⟩
      exact ⟨by omega, mem_tuples.mp ht⟩
    · rintro ⟨⟨h0, h1⟩, h2⟩
      exact ⟨i.toNat, by omega, is, mem_tuples.mpr h2, by omega, rfl⟩

/-- The list of subscripts found at a position. -/
theorem tuples_pos : ∀ {ds is : List Int}, (∀ d ∈ ds, 0 ≤ d) → within ds is = true →
    (tuples ds)[(pos ds is).toNat]? = some is
  | [], [], _, _ => by simp [tuples, pos]
  | [], _ :: _, _, h => by simp [within] at h
  | _ :: _, [], _, h => by simp [within] at h
  | d :: ds, i :: is, hd, h => by
    simp only [within, Bool.and_eq_true, decide_eq_true_eq] at h
    obtain ⟨⟨h0, h1⟩, h2⟩ := h
    have hds : ∀ e ∈ ds, 0 ≤ e := fun e he => hd e (by simp [he])
    have hb := pos_bounds h2
    have hl := tuples_length hds
    have e : (pos (d :: ds) (i :: is)).toNat = i.toNat * (tuples ds).length + (pos ds is).toNat := by
      simp only [pos]
      have : i * volume ds = ((i.toNat * (tuples ds).length : Nat) : Int) := by
        rw [Int.natCast_mul, hl, Int.toNat_of_nonneg h0]
      omega
    rw [e]
    simp only [tuples]
    rw [flatMap_getElem _ (tuples ds).length _ (by simp) _ _ (by omega)]
    rw [List.getElem?_range (by omega)]
    simp only [Option.bind_some, List.getElem?_map, tuples_pos hds h2, Option.map_some, Option.some.injEq,
      List.cons.injEq, and_true]
    omega

theorem pos_injective : ∀ {ds is js : List Int}, within ds is = true → within ds js = true →
    pos ds is = pos ds js → is = js
  | [], [], [], _, _, _ => rfl
  | [], _ :: _, _, h, _, _ => by simp [within] at h
  | [], [], _ :: _, _, h, _ => by simp [within] at h
  | _ :: _, [], _, h, _, _ => by simp [within] at h
  | _ :: _, _ :: _, [], _, h, _ => by simp [within] at h
  | d :: ds, i :: is, j :: js, h, k, e => by
    simp only [within, Bool.and_eq_true, decide_eq_true_eq] at h k
    have b1 := pos_bounds h.2
    have b2 := pos_bounds k.2
    simp only [pos] at e
    have : i = j := by
      rcases Int.lt_trichotomy i j with hij | hij | hij
      · have : (i + 1) * volume ds ≤ j * volume ds := Int.mul_le_mul_of_nonneg_right (by omega) (by omega)
        rw [Int.add_mul] at this
        omega
      · exact hij
      · have : (j + 1) * volume ds ≤ i * volume ds := Int.mul_le_mul_of_nonneg_right (by omega) (by omega)
        rw [Int.add_mul] at this
        omega
    subst this
    rw [pos_injective h.2 k.2 (by omega)]

/-- What is at a position has that position. -/
theorem pos_tuples : ∀ {ds is : List Int} {k : Nat}, (∀ d ∈ ds, 0 ≤ d) → (tuples ds)[k]? = some is →
    within ds is = true ∧ pos ds is = k
  | [], is, k, _, h => by
    cases k with
    | zero =>
      simp only [tuples, List.getElem?_cons_zero, Option.some.injEq] at h
      subst h
      simp [within, pos]
    | succ k => simp [tuples] at h
  | d :: ds, is, k, hd, h => by
    have hds : ∀ e ∈ ds, 0 ≤ e := fun e he => hd e (by simp [he])
    have hl := tuples_length hds
    have hw : within (d :: ds) is = true := mem_tuples.mp (List.mem_of_getElem? h)
    refine ⟨hw, ?_⟩
    cases is with
    | nil => simp [within] at hw
    | cons i is =>
      have hn : 0 < (tuples ds).length := by
        simp only [within, Bool.and_eq_true] at hw
        exact List.length_pos_of_mem (mem_tuples.mpr hw.2)
      have e : k = k / (tuples ds).length * (tuples ds).length + k % (tuples ds).length := by
        rw [Nat.mul_comm]; exact (Nat.div_add_mod k _).symm
      rw [e] at h
      simp only [tuples] at h
      rw [flatMap_getElem _ (tuples ds).length _ (by simp) _ _ (Nat.mod_lt _ hn)] at h
      cases hk : (List.range d.toNat)[k / (tuples ds).length]? with
      | none => simp [hk] at h
      | some b =>
        have hb : b = k / (tuples ds).length := by
          rw [List.getElem?_eq_some_iff] at hk
          obtain ⟨_, hk⟩ := hk
          simpa using hk.symm
        simp only [hk, Option.bind_some, List.getElem?_map, Option.map_eq_some_iff, List.cons.injEq] at h
        obtain ⟨t, ht, hbi, hti⟩ := h
        subst hti
        have ih := pos_tuples hds ht
        simp only [pos, ih.2, ← hl, ← hbi, hb]
        omega

theorem map_put (ds : List Int) (hd : ∀ d ∈ ds, 0 ≤ d) (f : Vars α) (s : List Int) (v : α) (hs : within ds s = true) :
    ((tuples ds).map f).set (pos ds s).toNat v = (tuples ds).map (put f s v) := by
  apply List.ext_getElem?
  intro k
  have hb := pos_bounds hs
  have hl := tuples_length hd
  rw [List.getElem?_set, List.getElem?_map, List.getElem?_map]
  cases ht : (tuples ds)[k]? with
  | none =>
    have : (tuples ds).length ≤ k := by simpa using ht
    have hne : ¬ (pos ds s).toNat = k := by omega
    simp [hne]
  | some t =>
    have hp := pos_tuples hd ht
    by_cases hk : (pos ds s).toNat = k
    · have : t = s := pos_injective hp.1 hs (by omega)
      subst this
      have hlt : (pos ds t).toNat < (tuples ds).length := by omega
      simp [hk, put] 
      omega
    · have : ¬ t = s := by
        rintro rfl
        omega
      simp [hk, put, this]

/-- The invariant: the storage has one element for each list of subscripts. -/
structure Wf (a : Arr α) : Prop where
  nonneg : ∀ d ∈ a.dims, 0 ≤ d ∧ isWord d = true
  one : a.isVector = true ↔ a.dims.length = 1
  some : a.dims ≠ []
  prod : ∃ n, product 1 a.dims = .ok n
  length : (a.elems.length : Int) = volume a.dims

theorem length_word {a : Arr α} (h : Wf a) : isWord a.elems.length = true := by
  obtain ⟨n, hn⟩ := h.prod
  have hne := h.some
  rw [h.length]
  -- the last product is a word
  have key : ∀ (ds : List Int) (p n : Int), isWord p = true → product p ds = .ok n → isWord n = true := by
    intro ds
    induction ds with
    | nil =>
      intro p n hp h
      simp only [product, Except.ok.injEq] at h
      exact h ▸ hp
    | cons d ds ih =>
      intro p n hp h
      simp only [product, mulW] at h
      split at h
      · rename_i hw
        simp only [Except.bind] at h
        exact ih _ _ hw h
      · simp [Except.bind] at h
  have := key _ _ _ (by decide) hn
  rw [product_ok hn, Int.one_mul] at this
  exact this

theorem make_wf {dims : List Int} {fill : α} {a : Arr α} (h : make dims fill = .ok a) (hne : dims ≠ [])
    (hd : ∀ d ∈ dims, 0 ≤ d ∧ isWord d = true) :
    Wf a ∧ a.dims = dims ∧ a.elems = List.replicate (volume dims).toNat fill := by
  have hv := volume_nonneg (fun d hm => (hd d hm).1)
  simp only [make] at h
  split at h
  · rename_i h1
    obtain ⟨d, rfl⟩ := List.length_eq_one_iff.mp h1
    have hd' := hd d (by simp)
    have hn : ¬ d < 0 := by omega
    simp only [List.headD_cons, allocate, hn, if_false, Except.map, Except.ok.injEq] at h
    subst h
    refine ⟨⟨hd, by simp, hne, ⟨d, ?_⟩, ?_⟩, rfl, by simp [volume]⟩
    · simp only [product]
      rw [mulW_ok (by simpa using hd'.2)]
      simp [Except.bind]
    · simp [volume]; omega
  · rename_i h1
    have h0 : ¬ dims.length = 0 := by simpa using hne
    simp only [sizeFromDimensions, h0, if_false] at h
    cases hp : product 1 dims with
    | error e => simp [hp, Except.bind] at h
    | ok n =>
      have hn := product_ok hp
      rw [Int.one_mul] at hn
      have hnn : ¬ n < 0 := by omega
      simp only [hp, Except.bind, allocate, hnn, if_false, Except.map, Except.ok.injEq] at h
      subst h
      exact ⟨⟨hd, by simpa using h1, hne, ⟨n, hp⟩, by simp; omega⟩, rfl, by simp [hn]⟩

theorem slotGet_at {a : Arr α} {k : Int} {v : α} (h0 : 0 ≤ k) (h : a.elems[k.toNat]? = some v) :
    slotGet a k = .value v := by
  have : ¬ k < 0 := by omega
  simp [slotGet, this, h]

theorem slotSet_at {a : Arr α} {k : Int} {v : α} (h0 : 0 ≤ k) (h : k < a.elems.length) :
    slotSet v a k = (.value v, { a with elems := a.elems.set k.toNat v }) := by
  have h1 : ¬ k < 0 := by omega
  have h2 : k.toNat < a.elems.length := by omega
  simp [slotSet, h1, h2]

/-- The variables of an array. -/
def Holds (a : Arr α) (f : Vars α) : Prop := a.elems = (tuples a.dims).map f

theorem Wf.nn {a : Arr α} (h : Wf a) : ∀ d ∈ a.dims, 0 ≤ d := fun d hm => (h.nonneg d hm).1

theorem wf_set {a : Arr α} (h : Wf a) (k : Nat) (v : α) : Wf { a with elems := a.elems.set k v } :=
  ⟨h.nonneg, h.one, h.some, h.prod, by simpa using h.length⟩

theorem holds_get {a : Arr α} {f : Vars α} (h : Wf a) (hf : Holds a f) {s : List Int} (hs : within a.dims s = true) :
    slotGet a (pos a.dims s) = .value (f s) := by
  refine slotGet_at (pos_bounds hs).1 ?_
  rw [show a.elems = _ from hf, List.getElem?_map, tuples_pos h.nn hs]
  rfl

theorem holds_set {a : Arr α} {f : Vars α} (h : Wf a) (hf : Holds a f) {s : List Int} (v : α)
    (hs : within a.dims s = true) :
    ∃ b, slotSet v a (pos a.dims s) = (.value v, b) ∧ Wf b ∧ b.dims = a.dims ∧ Holds b (put f s v) := by
  have hb := pos_bounds hs
  refine ⟨_, slotSet_at hb.1 (by rw [h.length]; exact hb.2), wf_set h _ _, rfl, ?_⟩
  simp only [Holds]
  rw [show a.elems = _ from hf, map_put _ h.nn _ _ _ hs]

theorem numbered_some {a : Arr α} (h : Wf a) {i : Int} {s : List Int} (hn : numbered a.dims i = some s) :
    within a.dims s = true ∧ pos a.dims s = i := by
  simp only [numbered] at hn
  split at hn
  · simp at hn
  · have := pos_tuples h.nn hn
    exact ⟨this.1, by omega⟩

theorem numbered_none {a : Arr α} (h : Wf a) {i : Int} :
    numbered a.dims i = none ↔ ¬ (0 ≤ i ∧ i < a.elems.length) := by
  have hl := tuples_length h.nn
  have hl' := h.length
  simp only [numbered]
  split
  · simp
    omega
  · rw [List.getElem?_eq_none_iff]
    omega

theorem element_spec {a : Arr α} {f : Vars α} (h : Wf a) (hf : Holds a f) {i : Int} (hi : isWord i = true) :
    element a i = (Spec.step a.dims f (.element i)).1 := by
  have hc := rangeCheck_nonneg hi (length_word h) (by omega)
  simp only [element, Spec.step, hc]
  cases hn : numbered a.dims i with
  | none =>
    have := (numbered_none h).mp hn
    simp [this]
  | some s =>
    have hs := numbered_some h hn
    have : 0 ≤ i ∧ i < a.elems.length := by
      have : ¬ ¬ (0 ≤ i ∧ i < a.elems.length) := fun k => by simpa [hn] using (numbered_none h (i := i)).mpr k
      omega
    simp only [this, and_self, decide_true, if_true]
    rw [← hs.2]
    exact holds_get h hf hs.1

theorem elementSetter_spec {a : Arr α} {f : Vars α} (h : Wf a) (hf : Holds a f) {i : Int} (v : α) :
    (elementSetter v a i).1 = (Spec.step a.dims f (.elementSetter v i)).1 ∧ Wf (elementSetter v a i).2 ∧
      (elementSetter v a i).2.dims = a.dims ∧
      Holds (elementSetter v a i).2 (Spec.step a.dims f (.elementSetter v i)).2 := by
  simp only [elementSetter, Spec.step]
  cases hn : numbered a.dims i with
  | none =>
    have := (numbered_none h).mp hn
    simp only [this, if_false]
    exact ⟨by trivial, h, by trivial, hf⟩
  | some s =>
    have hs := numbered_some h hn
    have : 0 ≤ i ∧ i < a.elems.length := by
      have : ¬ ¬ (0 ≤ i ∧ i < a.elems.length) := fun k => by simpa [hn] using (numbered_none h (i := i)).mpr k
      omega
    simp only [this, and_self, if_true]
    obtain ⟨b, e, w, d, hh⟩ := holds_set h hf v hs.1
    rw [hs.2] at e
    rw [e]
    exact ⟨rfl, w, d, hh⟩

/-- A vector's subscript is its number. -/
theorem vector_numbered {a : Arr α} (h : Wf a) (hv : a.isVector = true) (i : Int) :
    numbered a.dims i = if within a.dims [i] then some [i] else none := by
  obtain ⟨d, hd⟩ := List.length_eq_one_iff.mp (h.one.mp hv)
  have hl := h.length
  cases hn : numbered a.dims i with
  | none =>
    have h1 := (numbered_none h).mp hn
    rw [hl] at h1
    simp only [hd, volume, Int.mul_one] at h1
    simp [hd, within]
    omega
  | some s =>
    have h1 := numbered_some h hn
    rw [hd] at h1
    match s, h1 with
    | [], h1 => simp [within] at h1
    | [j], h1 =>
      have : j = i := by simpa [pos, volume] using h1.2
      subst this
      simp [hd, h1.1]
    | _ :: _ :: _, h1 => simp [within] at h1

theorem step_spec {a : Arr α} {f : Vars α} (h : Wf a) (hf : Holds a f) (o : Op α)
    (ho : match o with
      | .aref s | .arefSetter _ s => ∀ i ∈ s, isWord i = true
      | .element i | .elementSetter _ i => isWord i = true) :
    (step a o).1 = (Spec.step a.dims f o).1 ∧ Wf (step a o).2 ∧ (step a o).2.dims = a.dims ∧
      Holds (step a o).2 (Spec.step a.dims f o).2 := by
  obtain ⟨n, hp⟩ := h.prod
  cases o with
  | element i =>
    refine ⟨element_spec h hf ho, h, rfl, ?_⟩
    simp only [step, Spec.step]
    cases numbered a.dims i <;> exact hf
  | elementSetter v i => exact elementSetter_spec h hf v
  | aref s =>
    simp only [step, aref, Spec.step, wrong]
    cases hv : a.isVector with
    | true =>
      have h1 := h.one.mp hv
      simp only [if_true]
      match s, ho with
      | [], _ => exact ⟨by simp [h1], h, by trivial, by simpa [h1] using hf⟩
      | [i], ho =>
        have hi : isWord i = true := ho i (by simp)
        simp only
        rw [element_spec h hf hi]
        simp only [Spec.step, vector_numbered h hv, h1]
        cases hw : within a.dims [i] <;> exact ⟨by simp, h, by trivial, by simpa using hf⟩
      | _ :: _ :: _, _ => exact ⟨by simp [h1], h, by trivial, by simpa [h1] using hf⟩
    | false =>
      simp only [Bool.false_eq_true, if_false]
      rw [rowMajorIndex_eq hp h.nonneg ho]
      by_cases hl : s.length = a.dims.length
      · cases hw : within a.dims s with
        | true =>
          simp only [hl, ne_eq, not_true, if_false, if_true, holds_get h hf hw]
          exact ⟨trivial, h, trivial, hf⟩
        | false =>
          simp only [hl, ne_eq, not_true, if_false, Bool.false_eq_true]
          exact ⟨trivial, h, trivial, hf⟩
      · simp only [hl, ne_eq, not_false_eq_true, if_true]
        exact ⟨trivial, h, trivial, hf⟩
  | arefSetter v s =>
    simp only [step, arefSetter, Spec.step, wrong]
    cases hv : a.isVector with
    | true =>
      have h1 := h.one.mp hv
      simp only [if_true]
      match s, ho with
      | [], _ => exact ⟨by simp [h1], h, rfl, by simpa [h1] using hf⟩
      | [i], ho =>
        have hes := elementSetter_spec h hf (i := i) v
        simp only [Spec.step, vector_numbered h hv] at hes
        simp only [h1]
        cases hw : within a.dims [i] with
        | true => simpa [hw] using hes
        | false => simpa [hw] using hes
      | _ :: _ :: _, _ => exact ⟨by simp [h1], h, rfl, by simpa [h1] using hf⟩
    | false =>
      simp only [Bool.false_eq_true, if_false]
      rw [rowMajorIndex_eq hp h.nonneg ho]
      by_cases hl : s.length = a.dims.length
      · cases hw : within a.dims s with
        | true =>
          simp only [hl, ne_eq, not_true, if_false, if_true]
          obtain ⟨b, e, w, d, hh⟩ := holds_set h hf v hw
          rw [e]
          exact ⟨rfl, w, d, hh⟩
        | false =>
          simp only [hl, ne_eq, not_true, if_false, Bool.false_eq_true]
          exact ⟨trivial, h, trivial, hf⟩
      · simp only [hl, ne_eq, not_false_eq_true, if_true]
        exact ⟨trivial, h, trivial, hf⟩

theorem pos_lt : ∀ {ds is js : List Int}, within ds is = true → within ds js = true →
    (pos ds is < pos ds js ↔ is < js)
  | [], [], [], _, _ => by simp [pos]
  | [], _ :: _, _, h, _ => by simp [within] at h
  | [], [], _ :: _, _, h => by simp [within] at h
  | _ :: _, [], _, h, _ => by simp [within] at h
  | _ :: _, _ :: _, [], _, h => by simp [within] at h
  | d :: ds, i :: is, j :: js, h, k => by
    simp only [within, Bool.and_eq_true, decide_eq_true_eq] at h k
    have b1 := pos_bounds h.2
    have b2 := pos_bounds k.2
    rw [List.cons_lt_cons_iff]
    simp only [pos]
    rw [← pos_lt h.2 k.2]
    rcases Int.lt_trichotomy i j with hij | hij | hij
    · have : (i + 1) * volume ds ≤ j * volume ds := Int.mul_le_mul_of_nonneg_right (by omega) (by omega)
      rw [Int.add_mul] at this
      omega
    · subst hij
      omega
    · have : (j + 1) * volume ds ≤ i * volume ds := Int.mul_le_mul_of_nonneg_right (by omega) (by omega)
      rw [Int.add_mul] at this
      omega

end Verif.Arrays
