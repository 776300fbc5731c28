import Verif.Stretchy.Spec
/-!
# Lemmas about stretchy vectors
-/
namespace Verif.Stretchy
open Spec

variable {α : Type}

theorem powerSearch_spec (value : Nat) : ∀ (fuel p : Nat), 1 ≤ p → 1 ≤ fuel → value < p + fuel →
    ∃ q, powerSearch value fuel p = .ok q ∧ value ≤ q
  | 0, p, _, h, _ => by omega
  | fuel + 1, p, h1, _, h => by
    unfold powerSearch
    by_cases c : p ≥ value
    · rw [if_pos c]; exact ⟨p, rfl, c⟩
    · rw [if_neg c]; exact powerSearch_spec value fuel (p + p) (by omega) (by omega) (by omega)

theorem powerOfTwoCeiling_spec (value : Nat) :
    ∃ q, powerOfTwoCeiling value = .ok q ∧ value ≤ q :=
  powerSearch_spec value (value + 1) 1 (by omega) (by omega) (by omega)

theorem slot_ok {s : List α} {i : Nat} (h : i < s.length) : slot s i = .ok s[i] := by
  simp [slot, h]

theorem slotSet_ok {s : List α} {i : Nat} {x : α} (h : i < s.length) :
    slotSet s i x = .ok (s.set i x) := by simp [slotSet, h]

theorem copyLoop_spec (v : List α) : ∀ (n i : Nat) (nv : List α), i + n ≤ v.length →
    i + n ≤ nv.length → copyLoop v n i nv = .ok (nv.take i ++ (v.drop i).take n ++ nv.drop (i + n))
  | 0, i, nv, _, _ => by simp [copyLoop]
  | n + 1, i, nv, h1, h2 => by
    unfold copyLoop
    rw [slot_ok (by omega : i < v.length)]
    show (slotSet nv i v[i] >>= fun nv => copyLoop v n (i + 1) nv) = _
    rw [slotSet_ok (by omega)]
    show copyLoop v n (i + 1) _ = _
    rw [copyLoop_spec v n (i + 1) _ (by omega) (by simp; omega)]
    congr 1
    apply List.ext_getElem?
    intro j
    have e := List.getElem?_eq_getElem (l := v) (i := i) (by omega)
    simp only [List.getElem?_append, List.getElem?_take, List.getElem?_drop, List.length_take,
      List.length_drop, List.length_append, List.length_set, List.getElem?_set]
    by_cases c1 : j < i
    · rw [if_pos (by omega), if_pos (by omega), if_pos (by omega), if_neg (by omega),
        if_pos (by omega), if_pos (by omega), if_pos c1]
    · by_cases c2 : j = i
      · subst c2
        rw [if_pos (by omega), if_pos (by omega), if_pos (by omega), if_pos rfl,
          if_pos (by omega), if_pos (by omega), if_neg (by omega), if_pos (by omega)]
        rw [← e]; congr 1; omega
      · by_cases c3 : j < i + (n + 1)
        · rw [if_pos (by omega), if_neg (by omega), if_pos (by omega),
            if_pos (by omega), if_neg (by omega), if_pos (by omega)]
          congr 1; omega
        · rw [if_neg (by omega), if_neg (by omega), if_neg (by omega)]
          congr 1; omega

theorem fillLoop_spec (x : α) : ∀ (n i : Nat) (v : List α), i + n ≤ v.length →
    fillLoop x n i v = .ok (v.take i ++ List.replicate n x ++ v.drop (i + n))
  | 0, i, v, _ => by simp [fillLoop]
  | n + 1, i, v, h => by
    unfold fillLoop
    rw [slotSet_ok (by omega)]
    show fillLoop x n (i + 1) _ = _
    rw [fillLoop_spec x n (i + 1) _ (by simp; omega)]
    congr 1
    apply List.ext_getElem?
    intro j
    simp only [List.getElem?_append, List.getElem?_take, List.getElem?_drop, List.length_take,
      List.length_append, List.length_set, List.getElem?_set, List.length_replicate,
      List.getElem?_replicate]
    by_cases c1 : j < i
    · rw [if_pos (by omega), if_pos (by omega), if_pos (by omega), if_neg (by omega),
        if_pos (by omega), if_pos (by omega), if_pos c1]
    · by_cases c2 : j = i
      · subst c2
        rw [if_pos (by omega), if_pos (by omega), if_pos (by omega), if_pos rfl,
          if_pos (by omega), if_pos (by omega), if_neg (by omega), if_pos (by omega)]
      · by_cases c3 : j < i + (n + 1)
        · rw [if_pos (by omega), if_neg (by omega), if_pos (by omega),
            if_pos (by omega), if_neg (by omega), if_pos (by omega)]
        · rw [if_neg (by omega), if_neg (by omega), if_neg (by omega)]
          congr 1; omega

/-- The representation holds the sequence `l`, and the slots beyond it are in `P`. -/
def Holds (P : α → Prop) (v : Rep α) (l : List α) : Prop :=
  ∃ hidden, v.slots = l ++ hidden ∧ v.size = l.length ∧ ∀ x ∈ hidden, P x

theorem trustedSizeSetter_spec (P : α → Prop) (dflt : α) (hd : P dflt) (n : Nat) (v : Rep α)
    (l : List α) (h : Holds P v l) :
    ∃ v' l', trustedSizeSetter dflt n v = .ok v' ∧ Holds P v' l' ∧ Resized P l n l' := by
  obtain ⟨hidden, h1, h2, h3⟩ := h
  unfold trustedSizeSetter
  by_cases c1 : n > v.slots.length
  · obtain ⟨q, hq, hq2⟩ := powerOfTwoCeiling_spec n
    have hlen : l.length + hidden.length < n := by rw [h1, List.length_append] at c1; omega
    rw [if_pos c1, hq]
    refine ⟨⟨n, l ++ List.replicate (n - l.length) dflt ++ List.replicate (q - n) dflt⟩,
      l ++ List.replicate (n - l.length) dflt, ?_, ?_, ?_⟩
    · show (copyLoop v.slots v.size 0 (List.replicate q dflt) >>= fun nv =>
        fillLoop dflt (n - v.size) v.size nv >>= fun nv => .ok (Rep.mk n nv)) = _
      rw [copyLoop_spec _ _ _ _ (by rw [h1, h2]; simp) (by simp; omega)]
      show (fillLoop dflt (n - v.size) v.size _ >>= fun nv => .ok (Rep.mk n nv)) = _
      have e : ((List.replicate q dflt).take 0 ++ (v.slots.drop 0).take v.size ++
          (List.replicate q dflt).drop (0 + v.size)) = l ++ List.replicate (q - l.length) dflt := by
        rw [h1, h2]; simp
      rw [e, h2, fillLoop_spec _ _ _ _ (by simp; omega)]
      show Except.ok _ = _
      congr 2
      rw [List.take_left, List.drop_append, List.drop_replicate]
      congr 1
      rw [List.drop_eq_nil_of_le (by omega), List.nil_append]
      congr 1; omega
    · refine ⟨List.replicate (q - n) dflt, rfl, by simp; omega, fun x hx => ?_⟩
      rw [(List.mem_replicate.1 hx).2]; exact hd
    · refine ⟨List.replicate (n - l.length) dflt, ?_, by simp, fun x hx => ?_⟩
      · rw [List.take_of_length_le (by omega)]
      · rw [(List.mem_replicate.1 hx).2]; exact hd
  · rw [if_neg c1]
    rw [h1, List.length_append] at c1
    by_cases c2 : n < v.size
    · rw [if_pos c2]
      rw [h2] at c2
      refine ⟨⟨n, l.take n ++ (List.replicate (l.length - n) dflt ++ hidden)⟩, l.take n, ?_, ?_, ?_⟩
      · rw [h1, h2, fillLoop_spec _ _ _ _ (by simp; omega)]
        show Except.ok _ = _
        congr 2
        rw [List.take_append_of_le_length (by omega), List.drop_append,
          List.drop_eq_nil_of_le (by omega), List.nil_append, List.append_assoc]
        congr 3
        rw [show n + (l.length - n) - l.length = 0 by omega, List.drop_zero]
      · refine ⟨_, rfl, by simp; omega, fun x hx => ?_⟩
        rcases List.mem_append.1 hx with hx | hx
        · rw [(List.mem_replicate.1 hx).2]; exact hd
        · exact h3 x hx
      · exact ⟨[], by simp, by simp; omega, by simp⟩
    · rw [if_neg c2]
      rw [h2] at c2
      refine ⟨_, l ++ hidden.take (n - l.length), rfl, ⟨hidden.drop (n - l.length), ?_, ?_, ?_⟩, ?_⟩
      · rw [h1, List.append_assoc, List.take_append_drop]
      · simp; omega
      · exact fun x hx => h3 x (List.mem_of_mem_drop hx)
      · refine ⟨hidden.take (n - l.length), by rw [List.take_of_length_le (l := l) (by omega)],
          by rw [List.length_take]; omega, fun x hx => ?_⟩
        exact h3 x (List.mem_of_mem_take hx)

theorem store_spec (P : α → Prop) (v : Rep α) (l : List α) (h : Holds P v l) (i : Nat) (x : α)
    (hi : i < l.length) : ∃ v', store v i x = (v', .ok ()) ∧ Holds P v' (l.set i x) := by
  obtain ⟨hidden, h1, h2, h3⟩ := h
  unfold store
  rw [slotSet_ok (by rw [h1]; simp; omega)]
  refine ⟨_, rfl, hidden, ?_, by simpa using h2, h3⟩
  show v.slots.set i x = _
  rw [h1, List.set_append_left _ _ hi]

theorem elementsFrom_spec (v : Rep α) : ∀ (n i : Nat), i + n ≤ v.slots.length →
    elementsFrom v n i = .ok ((v.slots.drop i).take n)
  | 0, i, _ => by simp [elementsFrom]
  | n + 1, i, h => by
    unfold elementsFrom
    rw [slot_ok (by omega : i < v.slots.length)]
    show (elementsFrom v n (i + 1) >>= fun xs => .ok (v.slots[i] :: xs)) = _
    rw [elementsFrom_spec v n (i + 1) (by omega)]
    show Except.ok _ = _
    rw [List.drop_eq_getElem_cons (by omega : i < v.slots.length), List.take_succ_cons]

theorem elements_spec (P : α → Prop) (v : Rep α) (l : List α) (h : Holds P v l) :
    elements v = .ok l := by
  obtain ⟨hidden, h1, h2, h3⟩ := h
  unfold elements
  rw [elementsFrom_spec _ _ _ (by rw [h1, h2]; simp)]
  rw [h1, h2, List.drop_zero, List.take_left]

/-- `removeFirst` with an integer count as the loop has it. -/
theorem grovel_spec (test : α → Bool) : ∀ (rest kept junk tl : List α) (count : Int),
    grovel test rest.length count (kept.length + junk.length) kept.length
      (kept ++ junk ++ rest ++ tl) =
    .ok (kept ++ removeFirst test count.toNat rest ++
      ((junk ++ rest).drop (removeFirst test count.toNat rest).length) ++ tl,
      kept.length + (removeFirst test count.toNat rest).length)
  | [], kept, junk, tl, count => by cases count.toNat <;> simp [grovel, removeFirst]
  | x :: rest, kept, junk, tl, count => by
    rw [List.length_cons]
    unfold grovel
    rw [slot_ok (by simp)]
    have e : (kept ++ junk ++ x :: rest ++ tl)[kept.length + junk.length]'(by simp) = x := by
      simp [List.getElem_append]
    rw [e]
    show (if count > 0 ∧ test x = true then _ else _) = _
    by_cases c : count > 0 ∧ test x = true
    · rw [if_pos c]
      have ih := grovel_spec test rest kept (junk ++ [x]) tl (count - 1)
      obtain ⟨k, hk⟩ : ∃ k : Nat, count.toNat = k + 1 := ⟨count.toNat - 1, by omega⟩
      have hk2 : (count - 1).toNat = k := by omega
      rw [hk2] at ih
      rw [hk]
      simp only [removeFirst, c.2, if_true]
      simp only [List.append_assoc, List.length_append, List.length_singleton, List.singleton_append,
        List.length_cons, List.length_nil, Nat.add_assoc, Nat.zero_add, List.cons_append,
        List.nil_append] at ih ⊢
      exact ih
    · rw [if_neg c]
      have hr : removeFirst test count.toNat (x :: rest) =
          x :: removeFirst test count.toNat rest := by
        cases hc : count.toNat with
        | zero => cases rest <;> simp [removeFirst]
        | succ k =>
          have : ¬ test x = true := fun h => c ⟨by omega, h⟩
          simp [removeFirst, this]
      rw [hr, slotSet_ok (by simp; omega)]
      show grovel test rest.length count _ _ _ = _
      have hs : (kept ++ junk ++ x :: rest ++ tl).set kept.length x =
          kept ++ [x] ++ ((junk ++ [x]).drop 1) ++ rest ++ tl := by
        cases junk <;> simp [List.set_append]
      rw [hs]
      have ih := grovel_spec test rest (kept ++ [x]) ((junk ++ [x]).drop 1) tl count
      have e1 : (kept ++ [x]).length + ((junk ++ [x]).drop 1).length =
          kept.length + junk.length + 1 := by simp; omega
      have e2 : (kept ++ [x]).length = kept.length + 1 := by simp
      rw [e1, e2] at ih
      rw [ih]
      congr 2
      · have e3 : (junk ++ [x]).drop 1 ++ rest = (junk ++ x :: rest).drop 1 := by
          cases junk <;> simp
        rw [e3, List.drop_drop]
        simp [Nat.add_comm]
      · simp; omega

theorem removeFirst_all (test : α → Bool) : ∀ (l : List α) (c : Nat), l.length ≤ c →
    removeFirst test c l = l.filter fun x => ! test x
  | [], c, _ => by cases c <;> rfl
  | x :: l, 0, h => by simp at h
  | x :: l, c + 1, h => by
    rw [List.length_cons] at h
    unfold removeFirst
    by_cases t : test x = true
    · rw [if_pos t, removeFirst_all test l c (by omega)]; simp [t]
    · rw [if_neg t, removeFirst_all test l (c + 1) (by omega)]; simp [t]

theorem removeFirst_length (test : α → Bool) : ∀ (c : Nat) (l : List α),
    (removeFirst test c l).length ≤ l.length
  | c, [] => by cases c <;> simp [removeFirst]
  | 0, x :: l => by simp [removeFirst]
  | c + 1, x :: l => by
    unfold removeFirst
    split
    · have := removeFirst_length test c l; simp; omega
    · have := removeFirst_length test (c + 1) l; simp; omega

theorem remove_spec (P : α → Prop) (dflt : α) (hd : P dflt) (v : Rep α) (l : List α)
    (h : Holds P v l) (test : α → Bool) (count : Option Int) :
    ∃ v', remove dflt v test count = (v', .ok ()) ∧
      Holds P v' (removeFirst test (count.getD l.length).toNat l) := by
  obtain ⟨hidden, h1, h2, h3⟩ := h
  have g := grovel_spec test l [] [] hidden (count.getD l.length)
  simp only [List.nil_append, List.length_nil, Nat.zero_add] at g
  unfold remove
  rw [h1, h2, g]
  have hl := removeFirst_length test (count.getD (l.length : Int)).toNat l
  generalize removeFirst test (count.getD (l.length : Int)).toNat l = r at hl ⊢
  refine ⟨⟨r.length, r ++ (List.replicate (l.length - r.length) dflt ++ hidden)⟩, ?_, ?_⟩
  · show update v (fillLoop dflt (l.length - r.length) r.length (r ++ l.drop r.length ++ hidden) >>=
      fun slots => .ok ⟨r.length, slots⟩) = _
    rw [fillLoop_spec _ _ _ _ (by simp)]
    show (Rep.mk _ _, _) = _
    congr 2
    have e : (r ++ l.drop r.length ++ hidden).drop (r.length + (l.length - r.length)) = hidden := by
      rw [List.drop_append, List.drop_eq_nil_of_le (by simp), List.nil_append]
      simp
    rw [e, List.append_assoc r, List.take_left, List.append_assoc]
  · refine ⟨_, rfl, rfl, fun x hx => ?_⟩
    rcases List.mem_append.1 hx with hx | hx
    · rw [(List.mem_replicate.1 hx).2]; exact hd
    · exact h3 x hx

theorem resized_length {P : α → Prop} {l l' : List α} {n : Nat} (h : Resized P l n l') :
    l'.length = n := by
  obtain ⟨new, rfl, h, _⟩ := h
  simp [h]; omega

theorem resized_grow {P : α → Prop} {l l' : List α} {n : Nat} (h : Resized P l (n + 1) l')
    (hn : l.length ≤ n) (x : α) :
    ∃ l'', Resized P l n l'' ∧ (∃ y, P y ∧ l' = l'' ++ [y]) ∧ l'.set n x = l'' ++ [x] := by
  obtain ⟨new, rfl, hlen, hP⟩ := h
  have hne : new ≠ [] := by intro e; rw [e] at hlen; simp at hlen; omega
  have e := List.dropLast_concat_getLast hne
  have hl : (l ++ new.dropLast).length = n := by simp; omega
  have e1 : l.take (n + 1) ++ new = (l ++ new.dropLast) ++ [new.getLast hne] := by
    rw [List.take_of_length_le (by omega), List.append_assoc, e]
  refine ⟨l ++ new.dropLast, ⟨new.dropLast, ?_, by simp; omega, fun y hy =>
    hP y (List.dropLast_subset _ hy)⟩, ⟨_, hP _ (List.getLast_mem hne), e1⟩, ?_⟩
  · rw [List.take_of_length_le hn]
  · rw [e1, List.set_append_right _ _ (by omega)]
    rw [show n - (l ++ new.dropLast).length = 0 by omega]
    rfl

theorem step_spec (P : α → Prop) (ok : α → Bool) (dflt : α) (hd : P dflt) (v : Rep α) (l : List α)
    (h : Holds P v l) (op : Op α) :
    ∃ o v' l', step ok dflt v op = (o, v') ∧ Holds P v' l' ∧ Step P ok l op o l' := by
  have hsz : v.size = l.length := by obtain ⟨_, _, h2, _⟩ := h; exact h2
  cases op with
  | add x =>
    obtain ⟨v', l', h1, h2, h3⟩ := trustedSizeSetter_spec P dflt hd (v.size + 1) v l h
    rw [hsz] at h3
    obtain ⟨l'', g1, ⟨y, hy, g2⟩, g3⟩ := resized_grow h3 (Nat.le_refl _) x
    have : l'' = l := by
      obtain ⟨new, rfl, g, _⟩ := g1
      have : new = [] := List.eq_nil_of_length_eq_zero (by omega)
      rw [this]; simp
    subst this
    unfold step add
    rw [h1]
    dsimp only
    by_cases c : ok x = true
    · rw [if_pos c]
      obtain ⟨v'', k1, k2⟩ := store_spec P v' l' h2 l''.length x
        (by rw [resized_length h3]; omega)
      rw [hsz, k1]
      exact ⟨_, _, _, rfl, g3 ▸ k2, .add c⟩
    · rw [if_neg c]
      exact ⟨_, _, _, rfl, g2 ▸ h2, .addFail (by simpa using c) hy⟩
  | setSize n =>
    unfold step sizeSetter
    dsimp only
    by_cases c : n < 0
    · rw [if_pos c]; exact ⟨_, _, _, rfl, h, .setSizeFail c⟩
    · rw [if_neg c]
      obtain ⟨v', l', h1, h2, h3⟩ := trustedSizeSetter_spec P dflt hd n.toNat v l h
      rw [h1]
      refine ⟨_, _, l', rfl, h2, ?_⟩
      obtain ⟨m, rfl⟩ := Int.eq_ofNat_of_zero_le (Int.not_lt.1 c)
      exact .setSize h3
  | set i x =>
    unfold step elementSetter
    dsimp only
    by_cases c : ok x = false
    · rw [if_pos c]; exact ⟨_, _, _, rfl, h, .setType c⟩
    rw [if_neg c]
    have c' : ok x = true := by simpa using c
    by_cases c1 : i < 0
    · rw [if_pos c1]; exact ⟨_, _, _, rfl, h, .setRange c' c1⟩
    rw [if_neg c1]
    obtain ⟨m, rfl⟩ := Int.eq_ofNat_of_zero_le (Int.not_lt.1 c1)
    by_cases c2 : (m : Int) ≥ v.size
    · rw [if_pos c2]
      have c3 : l.length ≤ m := by omega
      obtain ⟨v', l', h1, h2, h3⟩ := trustedSizeSetter_spec P dflt hd ((m : Int).toNat + 1) v l h
      rw [h1]
      obtain ⟨l'', g1, _, g3⟩ := resized_grow h3 c3 x
      obtain ⟨v'', k1, k2⟩ := store_spec P v' l' h2 m x (by rw [resized_length h3]; simp)
      dsimp only
      rw [show (m : Int).toNat = m by simp, k1]
      exact ⟨_, _, _, rfl, g3 ▸ k2, .setGrow c' c3 g1⟩
    · rw [if_neg c2]
      have c3 : m < l.length := by omega
      obtain ⟨v'', k1, k2⟩ := store_spec P v l h m x c3
      rw [show (m : Int).toNat = m by simp, k1]
      exact ⟨_, _, _, rfl, k2, .set c' c3⟩
  | get i d =>
    unfold step element
    dsimp only
    by_cases c : 0 ≤ i ∧ i < v.size
    · rw [if_pos c]
      obtain ⟨m, rfl⟩ := Int.eq_ofNat_of_zero_le c.1
      have c3 : m < l.length := by omega
      obtain ⟨hidden, h1, h2, h3⟩ := h
      rw [show (m : Int).toNat = m by simp, slot_ok (by rw [h1]; simp; omega)]
      refine ⟨_, _, l, rfl, ⟨hidden, h1, h2, h3⟩, ?_⟩
      refine .get ?_
      rw [List.getElem?_eq_getElem c3]
      simp [h1, List.getElem_append_left c3]
    · rw [if_neg c]
      have c' : i < 0 ∨ (l.length : Int) ≤ i := by omega
      cases d with
      | none => exact ⟨_, _, _, rfl, h, .getRange c'⟩
      | some d =>
        dsimp only
        by_cases k : ok d = true
        · rw [if_pos k]; exact ⟨_, _, _, rfl, h, .getDefault c' k⟩
        · rw [if_neg k]; exact ⟨_, _, _, rfl, h, .getType c' (by simpa using k)⟩
  | remove t c =>
    obtain ⟨v', h1, h2⟩ := remove_spec P dflt hd v l h t c
    unfold step
    dsimp only
    rw [h1]
    cases c with
    | none =>
      refine ⟨_, _, _, rfl, h2, ?_⟩
      rw [removeFirst_all _ _ _ (by simp)]
      exact .remove
    | some c => exact ⟨_, _, _, rfl, h2, .removeCount⟩
  | size =>
    unfold step
    rw [hsz]
    exact ⟨_, _, _, rfl, h, .size⟩
  | all =>
    unfold step
    rw [elements_spec P v l h]
    exact ⟨_, _, _, rfl, h, .all⟩

theorem run_spec (P : α → Prop) (ok : α → Bool) (dflt : α) (hd : P dflt) :
    ∀ (ops : List (Op α)) (v : Rep α) (l : List α), Holds P v l →
    ∃ os v' l', run ok dflt v ops = (os, v') ∧ Holds P v' l' ∧ Steps P ok l ops os l'
  | [], v, l, h => ⟨_, _, _, rfl, h, .nil⟩
  | op :: ops, v, l, h => by
    obtain ⟨o, v', l', h1, h2, h3⟩ := step_spec P ok dflt hd v l h op
    obtain ⟨os, v'', l'', k1, k2, k3⟩ := run_spec P ok dflt hd ops v' l' h2
    refine ⟨o :: os, v'', l'', ?_, k2, .cons h3 k3⟩
    unfold run
    rw [h1]
    dsimp only
    rw [k1]

end Verif.Stretchy
