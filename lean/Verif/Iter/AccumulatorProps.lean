/-
The properties of accumulators.
-/
import Verif.Iter.Accumulator
import Verif.Iter.MapIntoProps

namespace Verif.Iter

variable {α β : Type}

/-! ### Lemmas -/

/-- A buffer has elements from slot 24 down. -/
def Holds (b : Buf α) (c : List α) : Prop := ∀ (i : Nat) a, c[i]? = some a → b (24 - i) = some a

/-- Buffers with lists of elements. -/
inductive AllHold : List (Buf α) → List (List α) → Prop
  | nil : AllHold [] []
  | cons {b bs c cs} : Holds b c → AllHold bs cs → AllHold (b :: bs) (c :: cs)

/-- An accumulator with elements. -/
structure Inv (acc : Acc α) (l : List α) : Prop where
  h : ∃ b bs recent olds, acc.bufs = b :: bs ∧ Holds b recent ∧ AllHold bs olds ∧ (∀ c ∈ olds, c.length = 24) ∧ l = olds.reverse.flatten ++ recent ∧
    acc.index ≤ 24 ∧ recent.length = 24 - acc.index

theorem inv_new : Inv (Acc.new : Acc α) [] :=
  ⟨_, _, [], [], rfl, by intro i a h; simp at h, .nil, by simp, rfl, Nat.le_refl _, rfl⟩

theorem inv_room {acc : Acc α} {l : List α} (h : Inv acc l) : Inv acc.room l ∧ 0 < acc.room.index := by
  unfold Acc.room
  by_cases hi : acc.index > 0
  · rw [if_pos hi]; exact ⟨h, hi⟩
  · rw [if_neg hi]
    obtain ⟨b, bs, recent, olds, h1, h2, h3, h4, h5, h6, h7⟩ := h
    refine ⟨⟨_, _, [], recent :: olds, rfl, by intro i a h; simp at h, ?_, ?_, ?_, Nat.le_refl _, rfl⟩, by show 0 < 24; omega⟩
    · rw [h1]; exact .cons h2 h3
    · intro c hc
      rcases List.mem_cons.mp hc with rfl | hc
      · omega
      · exact h4 c hc
    · rw [h5]; simp

theorem inv_store {acc : Acc α} {l : List α} (h : Inv acc l) (hi : 0 < acc.index) (v : α) : Inv { acc.store acc.index v with index := acc.index - 1 } (l ++ [v]) := by
  obtain ⟨b, bs, recent, olds, h1, h2, h3, h4, h5, h6, h7⟩ := h
  have hb : (acc.store acc.index v).bufs = (fun j => if j = acc.index then some v else b j) :: bs := by unfold Acc.store; rw [h1]
  refine ⟨_, _, recent ++ [v], olds, hb, ?_, h3, h4, by rw [h5]; simp, by dsimp only; omega, by dsimp only; simp; omega⟩
  intro i a ha
  dsimp only
  by_cases hi' : i < recent.length
  · rw [List.getElem?_append_left hi'] at ha
    rw [if_neg (by omega)]
    exact h2 i a ha
  · rw [List.getElem?_append_right (by omega)] at ha
    by_cases h0 : i = recent.length
    · rw [h0, Nat.sub_self] at ha
      simp at ha
      rw [if_pos (by omega), ha]
    · rw [List.getElem?_eq_none (by simp; omega)] at ha
      cases ha

theorem inv_add {acc : Acc α} {l : List α} (h : Inv acc l) (v : α) : Inv (acc.add v) (l ++ [v]) := by
  obtain ⟨h1, h2⟩ := inv_room h
  exact inv_store h1 h2 v

theorem invertLoop_eq : ∀ (next : List (Buf α)) (buff : Buf α) (prev : List (Buf α)) (size : Nat),
    invertLoop buff prev next size = (next.reverse ++ buff :: prev, size + 24 * next.length)
  | [], buff, prev, size => by simp [invertLoop]
  | b :: next, buff, prev, size => by
    rw [invertLoop, invertLoop_eq next]
    simp; omega

theorem allHold_append {bs bs' : List (Buf α)} {cs cs' : List (List α)} (h : AllHold bs cs) (h' : AllHold bs' cs') : AllHold (bs ++ bs') (cs ++ cs') := by
  induction h with
  | nil => exact h'
  | cons h1 _ ih => exact .cons h1 ih

theorem allHold_reverse {bs : List (Buf α)} {cs : List (List α)} (h : AllHold bs cs) : AllHold bs.reverse cs.reverse := by
  induction h with
  | nil => exact .nil
  | cons h1 _ ih => rw [List.reverse_cons, List.reverse_cons]; exact allHold_append ih (.cons h1 .nil)

theorem allHold_length {bs : List (Buf α)} {cs : List (List α)} (h : AllHold bs cs) : bs.length = cs.length := by
  induction h with
  | nil => rfl
  | cons _ _ ih => simp [ih]

theorem flatten_length24 : ∀ {cs : List (List α)}, (∀ c ∈ cs, c.length = 24) → cs.flatten.length = 24 * cs.length
  | [], _ => rfl
  | c :: cs, h => by
    rw [List.flatten_cons, List.length_append, h c (by simp), flatten_length24 (fun c hc => h c (by simp [hc])), List.length_cons]
    omega

/-- All chunks but the last are full. -/
def Full : List (List α) → Prop
  | [] => True
  | [c] => c.length ≤ 24
  | c :: d :: cs => c.length = 24 ∧ Full (d :: cs)

theorem full_append {recent : List α} (hr : recent.length ≤ 24) : ∀ {cs : List (List α)}, (∀ c ∈ cs, c.length = 24) → Full (cs ++ [recent])
  | [], _ => hr
  | [c], h => ⟨h c (by simp), hr⟩
  | c :: d :: cs, h => ⟨h c (by simp), full_append (cs := d :: cs) hr (fun x hx => h x (by simp at hx ⊢; right; exact hx))⟩

/-- An accumulator that is iterated over: the elements still to come. -/
structure Coming (acc : Acc α) (r : List α) : Prop where
  h : ∃ b bs c cs j, acc.bufs = b :: bs ∧ Holds b c ∧ AllHold bs cs ∧ Full (c :: cs) ∧ j < 24 ∧ acc.index = 24 - j ∧ r = c.drop j ++ cs.flatten

theorem full_le {c : List α} {cs : List (List α)} (h : Full (c :: cs)) : c.length ≤ 24 := by
  cases cs with
  | nil => exact h
  | cons d cs => have := h.1; omega

theorem coming_lt {c : List α} {cs : List (List α)} {j : Nat} {a : α} {r : List α} (h : Full (c :: cs)) (hj : j < 24) (he : a :: r = c.drop j ++ cs.flatten) : j < c.length := by
  cases cs with
  | nil =>
    by_cases hlt : j < c.length
    · exact hlt
    · rw [List.drop_of_length_le (by omega)] at he; simp at he
  | cons d cs => have := h.1; omega

theorem coming_cur {acc : Acc α} {a : α} {r : List α} (h : Coming acc (a :: r)) : acc.cur acc.index = some a := by
  obtain ⟨b, bs, c, cs, j, h1, h2, h3, h4, h5, h6, h7⟩ := h
  have hj := coming_lt h4 h5 h7
  unfold Acc.cur
  rw [h1, h6]
  dsimp only
  rw [List.drop_eq_getElem_cons hj, List.cons_append] at h7
  exact h2 j a (by rw [List.getElem?_eq_getElem hj, (List.cons.inj h7).1])

theorem coming_next {acc : Acc α} {a : α} {r : List α} (h : Coming acc (a :: r)) : Coming (acc.next 1) r := by
  obtain ⟨b, bs, c, cs, j, h1, h2, h3, h4, h5, h6, h7⟩ := h
  have hj := coming_lt h4 h5 h7
  have hle := full_le h4
  rw [List.drop_eq_getElem_cons hj, List.cons_append] at h7
  have hr := (List.cons.inj h7).2
  unfold Acc.next
  by_cases h0 : acc.index - 1 = 0
  · rw [if_pos h0, h1]
    have hdrop : c.drop (j + 1) = [] := List.drop_of_length_le (by omega)
    cases h3 with
    | nil => exact ⟨b, [], [], [], 0, rfl, by intro i a h; simp at h, .nil, by simp [Full], by omega, rfl, by rw [hr, hdrop]; rfl⟩
    | cons g1 g2 =>
      rename_i b' bs' c' cs'
      exact ⟨b', bs', c', cs', 0, rfl, g1, g2, h4.2, by omega, rfl, by rw [hr, hdrop]; rfl⟩
  · rw [if_neg h0]
    exact ⟨b, bs, c, cs, j + 1, h1, h2, h3, h4, by omega, by dsimp only; omega, hr⟩

theorem elements_eq : ∀ (r : List α) (acc : Acc α), Coming acc r → acc.elements r.length = r.map some
  | [], _, _ => rfl
  | a :: r, acc, h => by
    rw [List.length_cons, Acc.elements, coming_cur h, elements_eq r _ (coming_next h)]
    rfl

theorem inv_invert {acc : Acc α} {l : List α} (h : Inv acc l) : Coming acc.invert l ∧ acc.invert.size = some l.length := by
  obtain ⟨b, bs, recent, olds, h1, h2, h3, h4, h5, h6, h7⟩ := h
  have hlen : l.length = 24 * olds.length + recent.length := by
    rw [h5, List.length_append, flatten_length24 (fun c hc => h4 c (by simpa using hc)), List.length_reverse]
  unfold Acc.invert
  rw [h1]
  dsimp only
  rw [invertLoop_eq]
  dsimp only
  refine ⟨?_, by rw [hlen, allHold_length h3]; congr 1; omega⟩
  have hall := allHold_append (allHold_reverse h3) (.cons h2 .nil)
  have hfull := full_append (recent := recent) (by omega) (cs := olds.reverse) (fun c hc => h4 c (by simpa using hc))
  have hl : l = (olds.reverse ++ [recent]).flatten := by rw [h5]; simp
  have hne : olds.reverse ++ [recent] ≠ [] := by simp
  generalize olds.reverse ++ [recent] = chunks at hall hfull hl hne
  generalize bs.reverse ++ [b] = bufs at hall
  cases hall with
  | nil => exact absurd rfl hne
  | cons g1 g2 => exact ⟨_, _, _, _, 0, rfl, g1, g2, hfull, by omega, rfl, by rw [hl]; simp⟩

/-- Several elements. -/
def addAll (l : List α) (acc : Acc α) : Acc α := l.foldl Acc.add acc

theorem inv_addAll : ∀ (l : List α) {acc : Acc α} {m : List α}, Inv acc m → Inv (addAll l acc) (m ++ l)
  | [], acc, m, h => by simpa [addAll] using h
  | a :: l, acc, m, h => by
    have := inv_addAll l (inv_add h a)
    simpa [addAll] using this

/-! ### Sequences -/

/-- The elements that were added, any number of them, come out in the order in which they were added. -/
theorem accumulator_elements (l : List α) : (l.foldl Acc.add Acc.new).all = l.map some := by
  have h := inv_addAll l inv_new
  obtain ⟨h1, h2⟩ := inv_invert h
  unfold Acc.all
  show (addAll l Acc.new).invert.elements ((addAll l Acc.new).invert.size.getD 0) = _
  rw [h2, Option.getD_some]
  exact elements_eq _ _ h1

example : ((List.range 60).foldl Acc.add Acc.new).all = (List.range 60).map some := by decide +kernel

/-! ### Keys -/

theorem addKeyed_eq {acc : Acc α} {l : List α} (h : Inv acc l) (he : acc.index % 2 = 0) (key v : α) :
    Inv (acc.addKeyed key v) (l ++ [v, key]) ∧ (acc.addKeyed key v).index % 2 = 0 := by
  obtain ⟨h1, h2⟩ := inv_room h
  have hev : acc.room.index % 2 = 0 := by
    unfold Acc.room
    by_cases hi : acc.index > 0
    · rw [if_pos hi]; exact he
    · rw [if_neg hi]; simp [Acc.extend]
  have h3 := inv_store h1 h2 v
  have h4 := inv_store h3 (by dsimp only; omega) key
  have hs : ∀ (a : Acc α) (i j n : Nat) (x y : α), ({ a.store i x with index := j } : Acc α).store j y = { (a.store i x).store j y with index := j } := by
    intro a i j n x y
    unfold Acc.store
    cases h : a.bufs <;> simp [h]
  have hidx : ∀ (a : Acc α) (i : Nat) (x : α), (a.store i x).index = a.index := by
    intro a i x; unfold Acc.store; cases a.bufs <;> rfl
  constructor
  · rw [List.append_assoc] at h4
    have : acc.addKeyed key v = { ({ acc.room.store acc.room.index v with index := acc.room.index - 1 } : Acc α).store (acc.room.index - 1) key with index := acc.room.index - 1 - 1 } := by
      rw [hs _ _ _ 0]
      unfold Acc.addKeyed
      rfl
    rw [this]
    exact h4
  · show (acc.room.index - 2) % 2 = 0
    omega

/-- The values and keys as they are stored. -/
def interleave : List (α × α) → List α
  | [] => []
  | (k, v) :: l => v :: k :: interleave l

theorem inv_addAllKeyed : ∀ (l : List (α × α)) {acc : Acc α} {m : List α}, Inv acc m → acc.index % 2 = 0 →
    Inv (l.foldl (fun acc p => acc.addKeyed p.1 p.2) acc) (m ++ interleave l)
  | [], acc, m, h, _ => by simpa [interleave] using h
  | (k, v) :: l, acc, m, h, he => by
    obtain ⟨h1, h2⟩ := addKeyed_eq h he k v
    have := inv_addAllKeyed l h1 h2
    simpa [interleave] using this

theorem next_two {acc : Acc α} (h2 : 2 ≤ acc.index) (he : acc.index % 2 = 0) : acc.next 2 = (acc.next 1).next 1 ∧ (acc.next 1).index = acc.index - 1 ∧ (acc.next 1).cur = acc.cur := by
  have h1 : acc.next 1 = { acc with index := acc.index - 1 } := by
    unfold Acc.next
    rw [if_neg (by omega)]
  rw [h1]
  refine ⟨?_, rfl, rfl⟩
  unfold Acc.next
  dsimp only
  rw [show acc.index - 1 - 1 = acc.index - 2 by omega]

theorem next_even {acc : Acc α} (h2 : 2 ≤ acc.index) (he : acc.index % 2 = 0) : 2 ≤ (acc.next 2).index ∧ (acc.next 2).index % 2 = 0 := by
  unfold Acc.next
  by_cases h0 : acc.index - 2 = 0
  · rw [if_pos h0]
    cases acc.bufs with
    | nil => exact ⟨by show 2 ≤ 24; omega, by show 24 % 2 = 0; omega⟩
    | cons b bs => cases bs with
      | nil => exact ⟨by show 2 ≤ 24; omega, by show 24 % 2 = 0; omega⟩
      | cons => exact ⟨by show 2 ≤ 24; omega, by show 24 % 2 = 0; omega⟩
  · rw [if_neg h0]
    dsimp only
    omega

theorem keyed_eq : ∀ (r : List (α × α)) (acc : Acc α), Coming acc (interleave r) → 2 ≤ acc.index → acc.index % 2 = 0 →
    acc.keyed r.length = r.map (fun p => (some p.1, some p.2))
  | [], _, _, _, _ => rfl
  | (k, v) :: r, acc, h, h2, he => by
    obtain ⟨e1, e2, e3⟩ := next_two h2 he
    have hc := coming_cur h
    have hn := coming_next h
    have hc' := coming_cur hn
    rw [e2, e3] at hc'
    have hn' := coming_next hn
    rw [← e1] at hn'
    obtain ⟨n1, n2⟩ := next_even h2 he
    rw [List.length_cons, Acc.keyed, hc, hc', keyed_eq r _ hn' n1 n2]
    rfl

theorem interleave_length : ∀ l : List (α × α), (interleave l).length = 2 * l.length
  | [] => rfl
  | (k, v) :: l => by simp [interleave, interleave_length l]; omega

/-- The same for keys and elements. -/
theorem accumulator_keyed (l : List (α × α)) : (l.foldl (fun acc p => acc.addKeyed p.1 p.2) Acc.new).allKeyed = l.map (fun p => (some p.1, some p.2)) := by
  have h := inv_addAllKeyed l inv_new (by simp [Acc.new])
  obtain ⟨h1, h2⟩ := inv_invert h
  unfold Acc.allKeyed
  rw [h2, Option.getD_some, List.nil_append, interleave_length, Nat.mul_div_cancel_left _ (by omega)]
  have hi : (l.foldl (fun acc p => acc.addKeyed p.1 p.2) Acc.new : Acc α).invert.index = 24 := by
    obtain ⟨b, bs, _, _, e, _⟩ := h
    unfold Acc.invert
    rw [e]
  exact keyed_eq l _ h1 (by omega) (by omega)

/-! ### A sequence from keys and elements -/

theorem storeKeys_eq (sz : Nat) : ∀ (l : Assoc Key α) (temp : List (Option α)), temp.length = sz → Distinct l →
    (∀ res, storeKeys sz l temp = some res → res.length = sz ∧ ∀ (i : Nat), i < sz → res[i]? = some (match assoc l (.int i) with | some a => some a | none => (temp[i]?).getD none)) ∧
    ((∃ res, storeKeys sz l temp = some res) ↔ ∀ p ∈ l, ∃ i : Nat, i < sz ∧ p.1 = .int i)
  | [], temp, hl, _ => by
    refine ⟨fun res h => ?_, by simp [storeKeys]⟩
    cases h
    refine ⟨hl, fun i hi => ?_⟩
    rw [List.getElem?_eq_getElem (by omega)]
    rfl
  | (.other n, e) :: l, temp, hl, hd => by
    refine ⟨by simp [storeKeys], ?_⟩
    simp only [storeKeys, reduceCtorEq, exists_false, false_iff]
    intro h
    obtain ⟨i, _, hi⟩ := h (.other n, e) (by simp)
    cases hi
  | (.int k, e) :: l, temp, hl, hd => by
    obtain ⟨hd1, hd2⟩ := distinct_cons hd
    rw [storeKeys]
    by_cases hk : k ≥ 0 ∧ k < sz
    · rw [if_pos hk]
      obtain ⟨n, rfl⟩ : ∃ n : Nat, k = n := ⟨k.toNat, by omega⟩
      obtain ⟨h1, h2⟩ := storeKeys_eq sz l (temp.set n (some e)) (by simpa using hl) hd2
      rw [Int.toNat_natCast]
      refine ⟨fun res hres => ?_, ?_⟩
      · obtain ⟨g1, g2⟩ := h1 res hres
        refine ⟨g1, fun i hi => ?_⟩
        rw [g2 i hi]
        by_cases hin : i = n
        · subst hin
          have hnone : assoc l (.int i) = none := by
            cases ha : assoc l (.int i) with
            | none => rfl
            | some a => exact absurd (assoc_mem.2 ⟨a, ha⟩) hd1
          have hhere : assoc ((.int i, e) :: l) (.int i) = some e := by unfold assoc; simp
          rw [hnone, hhere, List.getElem?_set, if_pos rfl, if_pos (by omega)]
          rfl
        · have hskip : assoc ((.int n, e) :: l) (.int i) = assoc l (.int i) := by
            unfold assoc
            rw [List.find?_cons]
            have : ¬ Key.int n = Key.int i := by simp; omega
            simp [this]
          rw [hskip, List.getElem?_set_ne (by omega)]
      · rw [h2]
        constructor
        · intro h p hp
          rcases List.mem_cons.mp hp with rfl | hp
          · exact ⟨n, by omega, rfl⟩
          · exact h p hp
        · exact fun h p hp => h p (by simp [hp])
    · rw [if_neg hk]
      refine ⟨by simp, ?_⟩
      simp only [reduceCtorEq, exists_false, false_iff]
      intro h
      obtain ⟨i, hi, he⟩ := h (.int k, e) (by simp)
      have : k = i := by simpa using he
      omega

/-- Keys and elements become a sequence exactly if the keys are the numbers up to their number; then each element
    is at the index that is its key.  Otherwise there is an error. -/
theorem convert_keyed (l : Assoc Key α) (hd : Distinct l) :
    (∀ res, convertKeyed l = some res → res.length = l.length ∧ ∀ (i : Nat), i < l.length → ∃ a, assoc l (.int i) = some a ∧ res[i]? = some (some a)) ∧
    ((∃ res, convertKeyed l = some res) ↔ ∀ i : Nat, i < l.length → ∃ a, assoc l (.int i) = some a) := by
  unfold convertKeyed
  obtain ⟨h1, h2⟩ := storeKeys_eq l.length l (List.replicate l.length none) (by simp) hd
  have hiff : (∀ p ∈ l, ∃ i : Nat, i < l.length ∧ p.1 = .int i) ↔ ∀ i : Nat, i < l.length → ∃ a, assoc l (.int i) = some a := by
    have hnd : ((List.range l.length).map (fun i : Nat => Key.int i)).Nodup :=
      List.pairwise_map.mpr (List.nodup_range.imp (fun {a b} h he => h (by simp at he; omega)))
    constructor
    · intro h
      have hsub : l.map (·.1) ⊆ (List.range l.length).map (fun i : Nat => Key.int i) := by
        intro k hk
        obtain ⟨p, hp, rfl⟩ := List.mem_map.mp hk
        obtain ⟨i, hi, he⟩ := h p hp
        exact List.mem_map.mpr ⟨i, List.mem_range.mpr hi, he.symm⟩
      have := keys_le hd hsub (by simp)
      intro i hi
      exact assoc_mem.1 (this (List.mem_map.mpr ⟨i, List.mem_range.mpr hi, rfl⟩))
    · intro h
      have hsub : (List.range l.length).map (fun i : Nat => Key.int i) ⊆ l.map (·.1) := by
        intro k hk
        obtain ⟨i, hi, rfl⟩ := List.mem_map.mp hk
        exact assoc_mem.2 (h i (List.mem_range.mp hi))
      have := keys_le hnd hsub (by simp)
      intro p hp
      obtain ⟨i, hi, he⟩ := List.mem_map.mp (this (List.mem_map_of_mem hp))
      exact ⟨i, List.mem_range.mp hi, he.symm⟩
  refine ⟨fun res hres => ?_, by rw [h2, hiff]⟩
  obtain ⟨g1, g2⟩ := h1 res hres
  refine ⟨g1, fun i hi => ?_⟩
  obtain ⟨a, ha⟩ := hiff.1 (h2.1 ⟨res, hres⟩) i hi
  refine ⟨a, ha, ?_⟩
  rw [g2 i hi, ha]

example : convertKeyed [(.int 1, 10), (.int 0, 11)] = some [some 11, some 10] ∧ convertKeyed [(.int 2, 10), (.int 0, 11)] = none := by decide

end Verif.Iter
