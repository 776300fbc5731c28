/-
Lemmas about class-keyed dispatch tables.
-/
import Verif.Dispatch.Table.Model
import Mathlib.Data.Nat.ModEq
import Mathlib.Data.Fintype.EquivFin
import Mathlib.Data.Fintype.Card
import Mathlib.Tactic.Ring

namespace Verif.Dispatch.Table
variable {V : Type}

/-! ### Probe sequences -/

theorem and_two_mul (x m : Nat) : x &&& (2 * m) = 2 * ((x / 2) &&& m) := by
  apply Nat.eq_of_testBit_eq
  intro i
  cases i with
  | zero => simp [Nat.testBit_zero]
  | succ i =>
    rw [Nat.testBit_and, Nat.testBit_succ, Nat.testBit_succ, Nat.testBit_succ,
      Nat.mul_div_cancel_left _ (by omega), Nat.mul_div_cancel_left _ (by omega), Nat.testBit_and]

theorem and_mask (x p : Nat) : x &&& (2 ^ (p + 1) - 2) = 2 * ((x / 2) % 2 ^ p) := by
  have h : 2 ^ (p + 1) - 2 = 2 * (2 ^ p - 1) := by rw [Nat.pow_succ]; omega
  rw [h, and_two_mul, Nat.and_two_pow_sub_one_eq_mod]

/-- Number of the slot reached by the `n`-th probe. -/
def pos (key L P n : Nat) : Nat := (key / 2 + n * (hashStep key L / 2)) % P

theorem hashStep_even (key L : Nat) :
    ∃ s, hashStep key L = 2 * s ∧ s % 2 = 1 := by
  have h : (key >>> L) &&& 15 < 16 := Nat.lt_of_le_of_lt Nat.and_le_right (by omega)
  have : ∀ n : Nat, n < 16 → ∃ s, (secondHashValues[n]?).getD 0 = 2 * s ∧ s % 2 = 1 := by
    intro n hn
    refine ⟨(secondHashValues[n]?).getD 0 / 2, ?_, ?_⟩ <;> revert n <;> decide
  exact this _ h

theorem firstIndex_eq {slots : List (Slot V)} {p : Nat} (h : slots.length = 2 ^ p) (key L : Nat) :
    firstIndex key slots = 2 * pos key L (2 ^ p) 0 := by
  unfold firstIndex ckdSize pos
  rw [h, show 2 * 2 ^ p = 2 ^ (p + 1) by rw [Nat.pow_succ]; omega, and_mask]
  simp

theorem nextIndex_eq (key p n : Nat) :
    nextIndex (2 * pos key (p + 1) (2 ^ p) n) (hashStep key (p + 1)) (hashMask (p + 1))
      = 2 * pos key (p + 1) (2 ^ p) (n + 1) := by
  obtain ⟨s, hs, -⟩ := hashStep_even key (p + 1)
  unfold nextIndex hashMask
  rw [and_mask, hs]
  unfold pos
  rw [hs]
  have e : (2 * s) / 2 = s := by omega
  rw [e]
  have e2 : ∀ a : Nat, (2 * a + 2 * s) / 2 = a + s := by intro a; omega
  rw [e2, Nat.mod_add_mod]
  congr 2
  ring

theorem pos_lt {key L p n : Nat} : pos key L (2 ^ p) n < 2 ^ p := Nat.mod_lt _ (Nat.pow_pos (by omega))

theorem pos_inj {key L p m n : Nat} (hm : m < 2 ^ p) (hn : n < 2 ^ p)
    (h : pos key L (2 ^ p) m = pos key L (2 ^ p) n) : m = n := by
  obtain ⟨s, hs, hodd⟩ := hashStep_even key L
  unfold pos at h
  rw [hs, show (2 * s) / 2 = s by omega] at h
  have h1 : m * s ≡ n * s [MOD 2 ^ p] := Nat.ModEq.add_left_cancel' (key / 2) h
  have hc : Nat.Coprime (2 ^ p) s := by
    apply Nat.Coprime.pow_left
    unfold Nat.Coprime
    rw [Nat.gcd_rec, hodd]
    rfl
  have h2 : m ≡ n [MOD 2 ^ p] := Nat.ModEq.cancel_right_of_coprime hc h1
  exact Nat.ModEq.eq_of_lt_of_lt h2 hm hn

theorem pos_surj (key L p j : Nat) (hj : j < 2 ^ p) : ∃ n < 2 ^ p, pos key L (2 ^ p) n = j := by
  let f : Fin (2 ^ p) → Fin (2 ^ p) := fun n => ⟨pos key L (2 ^ p) n.1, pos_lt⟩
  have hi : Function.Injective f := by
    intro a b hab
    exact Fin.ext (pos_inj a.2 b.2 (Fin.mk.inj hab))
  obtain ⟨n, hn⟩ := (Finite.injective_iff_surjective.mp hi) ⟨j, hj⟩
  exact ⟨n.1, n.2, congrArg Fin.val hn⟩

/-! ### Invariants -/

/-- The slots of a table. -/
def slotsOf : Ckd V → List (Slot V)
  | .mono s => [s]
  | .lin slots => slots
  | .hash _ slots => slots

/-- Every key of a hashed table is where its probe sequence finds it. -/
def Path (p : Nat) (slots : List (Slot V)) : Prop :=
  ∀ (j k : Nat) (v : V), slots[j]? = some (some (k, v)) →
    ∃ n < 2 ^ p, pos k (p + 1) (2 ^ p) n = j ∧
      ∀ m < n, ∃ (k' : Nat) (v' : V),
        slots[pos k (p + 1) (2 ^ p) m]? = some (some (k', v')) ∧ k' ≠ k

/-- Well-formed tables. -/
def Inv : Ckd V → Prop
  | .mono _ => True
  | .lin slots => slots.length ≤ 4 ∧ ∃ (ks : List (Nat × V)) (n : Nat),
      slots = ks.map some ++ List.replicate n none ∧ (ks.map Prod.fst).Nodup
  | .hash L slots => ∃ p, L = p + 1 ∧ 4 ≤ p ∧ slots.length = 2 ^ p ∧
      4 * count slots ≤ 3 * 2 ^ p ∧ Path p slots

/-- A well-formed table with the given contents. -/
def Rep (d : Ckd V) (f : Nat → Option V) : Prop :=
  Inv d ∧ ∀ k v, f k = some v ↔ some (k, v) ∈ slotsOf d

/-- The finite map after an addition. -/
def upd (f : Nat → Option V) (k : Nat) (v : V) : Nat → Option V :=
  fun k' => if k' = k then some v else f k'

theorem slotAt_two_mul (slots : List (Slot V)) (j : Nat) :
    slotAt slots (2 * j) = (slots[j]?).join := by
  unfold slotAt; rw [show 2 * j / 2 = j by omega]

/-- The `n`-th probe is the last one. -/
def Stop (slots : List (Slot V)) (key L P n : Nat) : Prop :=
  ∀ k v, slots[pos key L P n]? = some (some (k, v)) → k = key

theorem probe_first {slots : List (Slot V)} {key p : Nat} :
    ∀ (d n fuel : Nat), d < fuel → Stop slots key (p + 1) (2 ^ p) (n + d) →
      (∀ m < d, ¬ Stop slots key (p + 1) (2 ^ p) (n + m)) →
      probe slots key (hashStep key (p + 1)) (hashMask (p + 1)) fuel
          (2 * pos key (p + 1) (2 ^ p) n) n
        = match (slots[pos key (p + 1) (2 ^ p) (n + d)]?).join with
          | none => some (.empty (2 * pos key (p + 1) (2 ^ p) (n + d)) (n + d))
          | some (_, v) => some (.hit (2 * pos key (p + 1) (2 ^ p) (n + d)) v) := by
  intro d
  induction d with
  | zero =>
    intro n fuel hf hs _
    obtain ⟨fuel, rfl⟩ : ∃ g, fuel = g + 1 := ⟨fuel - 1, by omega⟩
    unfold probe
    rw [slotAt_two_mul]
    simp only [Nat.add_zero] at hs ⊢
    rcases hx : slots[pos key (p + 1) (2 ^ p) n]? with _ | _ | ⟨k, v⟩
    · rfl
    · rfl
    · have := hs k v hx
      simp [this]
  | succ d ih =>
    intro n fuel hf hs hn
    obtain ⟨fuel, rfl⟩ : ∃ g, fuel = g + 1 := ⟨fuel - 1, by omega⟩
    have h0 := hn 0 (by omega)
    unfold Stop at h0
    push Not at h0
    obtain ⟨k, v, hkv, hne⟩ := h0
    simp only [Nat.add_zero] at hkv
    have h1 := ih (n + 1) fuel (by omega) (by rw [show n + 1 + d = n + (d + 1) by omega]; exact hs)
      (fun m hm => by rw [show n + 1 + m = n + (m + 1) by omega]; exact hn (m + 1) (by omega))
    unfold probe
    rw [slotAt_two_mul, hkv]
    simp only [Option.join, Option.bind, id, hne, if_false, nextIndex_eq]
    rw [show n + (d + 1) = n + 1 + d by omega]
    exact h1

theorem Path.stop {p : Nat} {slots : List (Slot V)} (h : Path p slots) {j k : Nat} {v : V}
    (hj : slots[j]? = some (some (k, v))) :
    ∃ n < 2 ^ p, pos k (p + 1) (2 ^ p) n = j ∧ Stop slots k (p + 1) (2 ^ p) n ∧
      ∀ m < n, ¬ Stop slots k (p + 1) (2 ^ p) m := by
  obtain ⟨n, hn, hp, hm⟩ := h j k v hj
  refine ⟨n, hn, hp, ?_, ?_⟩
  · intro k' v' h'
    rw [hp, hj] at h'
    simp only [Option.some.injEq, Prod.mk.injEq] at h'
    exact h'.1.symm
  · intro m hmn hs
    obtain ⟨k', v', h1, h2⟩ := hm m hmn
    exact h2 (hs k' v' h1)

theorem search_hit {p : Nat} {slots : List (Slot V)} (hl : slots.length = 2 ^ p)
    (h : Path p slots) {j k : Nat} {v : V} (hj : slots[j]? = some (some (k, v))) :
    search (p + 1) slots k = some (.hit (2 * j) v) := by
  obtain ⟨n, hn, hp, hs, hns⟩ := h.stop hj
  unfold search
  rw [firstIndex_eq hl k (p + 1), hl]
  rw [probe_first n 0 _ hn (by rw [Nat.zero_add]; exact hs)
    (fun m hm => by rw [Nat.zero_add]; exact hns m hm)]
  simp [hp, hj]

/-- A search for an absent key in a table with an empty slot. -/
theorem search_empty {p : Nat} {slots : List (Slot V)} (hl : slots.length = 2 ^ p)
    {k : Nat} (hk : ∀ v, some (k, v) ∉ slots) (he : none ∈ slots) :
    ∃ n < 2 ^ p, search (p + 1) slots k = some (.empty (2 * pos k (p + 1) (2 ^ p) n) n) ∧
      slots[pos k (p + 1) (2 ^ p) n]? = some none ∧
      ∀ m < n, ∃ (k' : Nat) (v' : V),
        slots[pos k (p + 1) (2 ^ p) m]? = some (some (k', v')) ∧ k' ≠ k := by
  classical
  obtain ⟨j, hj, hje⟩ := List.mem_iff_getElem.mp he
  obtain ⟨n0, hn0, hp0⟩ := pos_surj k (p + 1) p j (by omega)
  have hex : ∃ n, Stop slots k (p + 1) (2 ^ p) n := by
    refine ⟨n0, ?_⟩
    intro k' v' h'
    rw [hp0, List.getElem?_eq_getElem hj, hje] at h'
    simp at h'
  have hstop := Nat.find_spec hex
  have hmin : ∀ m < Nat.find hex, ¬ Stop slots k (p + 1) (2 ^ p) m := fun m hm => Nat.find_min hex hm
  have hle : Nat.find hex ≤ n0 := by
    apply Nat.find_min'
    intro k' v' h'
    rw [hp0, List.getElem?_eq_getElem hj, hje] at h'
    simp at h'
  generalize Nat.find hex = n at *
  have hlt : pos k (p + 1) (2 ^ p) n < slots.length := by rw [hl]; exact pos_lt
  have hnone : slots[pos k (p + 1) (2 ^ p) n]? = some none := by
    rw [List.getElem?_eq_getElem hlt]
    rcases hx : slots[pos k (p + 1) (2 ^ p) n] with _ | ⟨k', v'⟩
    · rfl
    · exfalso
      have h' := hstop k' v' (by rw [List.getElem?_eq_getElem hlt, hx])
      subst h'
      exact hk v' (hx ▸ List.getElem_mem hlt)
  refine ⟨n, by omega, ?_, hnone, ?_⟩
  · unfold search
    rw [firstIndex_eq hl k (p + 1), hl]
    rw [probe_first n 0 _ (by omega) (by rw [Nat.zero_add]; exact hstop)
      (fun m hm => by rw [Nat.zero_add]; exact hmin m hm)]
    simp [hnone]
  · intro m hm
    have := hmin m hm
    unfold Stop at this
    push Not at this
    obtain ⟨k', v', h1, h2⟩ := this
    exact ⟨k', v', h1, h2⟩

theorem count_lt_exists {slots : List (Slot V)} (h : count slots < slots.length) :
    none ∈ slots := by
  unfold count at h
  by_contra hn
  have : slots.filter Option.isSome = slots := by
    rw [List.filter_eq_self]
    intro a ha
    cases a with
    | none => exact absurd ha hn
    | some _ => rfl
  rw [this] at h
  omega

theorem Inv.none_mem {p : Nat} {slots : List (Slot V)} (hl : slots.length = 2 ^ p)
    (hc : 4 * count slots ≤ 3 * 2 ^ p) : none ∈ slots := by
  apply count_lt_exists
  have : 0 < 2 ^ p := Nat.pow_pos (by omega)
  omega

theorem linearLookup_mem {key : Nat} {v : V} : ∀ {slots : List (Slot V)},
    linearLookup key slots = some v → some (key, v) ∈ slots
  | [], h => by simp [linearLookup] at h
  | none :: rest, h => by
    simp only [linearLookup] at h
    exact List.mem_cons_of_mem _ (linearLookup_mem h)
  | some (k, w) :: rest, h => by
    simp only [linearLookup] at h
    split at h
    · next hk => subst hk; cases h; exact List.mem_cons_self
    · exact List.mem_cons_of_mem _ (linearLookup_mem h)

theorem linearLookup_none {key : Nat} : ∀ {slots : List (Slot V)},
    linearLookup key slots = none → ∀ v, some (key, v) ∉ slots
  | [], _, v => by simp
  | none :: rest, h, v => by
    simp only [linearLookup] at h
    simpa using linearLookup_none h v
  | some (k, w) :: rest, h, v => by
    simp only [linearLookup] at h
    split at h
    · cases h
    · next hk =>
      have := linearLookup_none h v
      simp only [List.mem_cons, Option.some.injEq, Prod.mk.injEq, not_or]
      exact ⟨fun e => hk e.1.symm, this⟩

theorem lookup_of_rep {d : Ckd V} {f : Nat → Option V} (h : Rep d f) (k : Nat) :
    lookup k d = some (f k) := by
  obtain ⟨hi, hm⟩ := h
  cases d with
  | mono s =>
    rcases s with _ | ⟨k', v⟩
    · simp only [lookup]
      rcases hf : f k with _ | v
      · rfl
      · exact absurd ((hm k v).mp hf) (by simp [slotsOf])
    · simp only [lookup]
      congr 1
      split
      · next e => subst e; exact ((hm _ v).mpr (by simp [slotsOf])).symm
      · next e =>
        rcases hf : f k with _ | v'
        · rfl
        · have := (hm k v').mp hf
          simp only [slotsOf, List.mem_singleton, Option.some.injEq, Prod.mk.injEq] at this
          exact absurd this.1.symm e
  | lin slots =>
    simp only [lookup]
    congr 1
    rcases hl : linearLookup k slots with _ | v
    · rcases hf : f k with _ | v
      · rfl
      · exact absurd ((hm k v).mp hf) (linearLookup_none hl v)
    · exact ((hm k v).mpr (linearLookup_mem hl)).symm
  | hash L slots =>
    obtain ⟨p, rfl, hp, hl, hc, hpath⟩ := hi
    simp only [lookup]
    rcases hf : f k with _ | v
    · have hk : ∀ v, some (k, v) ∉ slots := by
        intro v hv
        have := (hm k v).mpr hv
        rw [hf] at this; cases this
      obtain ⟨n, -, hs, -⟩ := search_empty hl hk (Inv.none_mem hl hc)
      rw [hs]
    · have hv := (hm k v).mp hf
      obtain ⟨j, hj⟩ := List.mem_iff_getElem?.mp hv
      rw [search_hit hl hpath hj]

/-! ### Storing in a slot -/

theorem count_set_le (slots : List (Slot V)) (j : Nat) (s : Slot V) :
    count (slots.set j s) ≤ count slots + 1 := by
  unfold count
  induction slots generalizing j with
  | nil => simp
  | cons a l ih =>
    cases j with
    | zero =>
      rw [List.set_cons_zero, List.filter_cons, List.filter_cons]
      split <;> split <;> (simp; try omega)
    | succ j =>
      rw [List.set_cons_succ, List.filter_cons, List.filter_cons]
      have := ih j
      split <;> simp <;> omega

theorem count_set_some {slots : List (Slot V)} {j : Nat} {x y : Nat × V}
    (h : slots[j]? = some (some x)) : count (slots.set j (some y)) = count slots := by
  unfold count
  induction slots generalizing j with
  | nil => simp at h
  | cons a l ih =>
    cases j with
    | zero =>
      simp only [List.getElem?_cons_zero, Option.some.injEq] at h
      subst h
      simp
    | succ j =>
      rw [List.set_cons_succ, List.filter_cons, List.filter_cons]
      rw [List.getElem?_cons_succ] at h
      have := ih h
      split <;> simp [this]

theorem path_set {p : Nat} {slots : List (Slot V)} (hl : slots.length = 2 ^ p)
    (h : Path p slots) {k n : Nat} (v : V) (hn : n < 2 ^ p)
    (hcur : ∀ k' v', slots[pos k (p + 1) (2 ^ p) n]? = some (some (k', v')) → k' = k)
    (hprev : ∀ m < n, ∃ (k' : Nat) (v' : V),
      slots[pos k (p + 1) (2 ^ p) m]? = some (some (k', v')) ∧ k' ≠ k) :
    Path p (slots.set (pos k (p + 1) (2 ^ p) n) (some (k, v))) := by
  have hlt : pos k (p + 1) (2 ^ p) n < slots.length := by rw [hl]; exact pos_lt
  -- an occupied slot keeps its key
  have keep : ∀ (i k' : Nat) (v' : V), slots[i]? = some (some (k', v')) →
      ∃ v'', (slots.set (pos k (p + 1) (2 ^ p) n) (some (k, v)))[i]? = some (some (k', v'')) := by
    intro i k' v' hi
    by_cases e : pos k (p + 1) (2 ^ p) n = i
    · have hk := hcur k' v' (by rw [e]; exact hi)
      subst hk
      exact ⟨v, by rw [← e, List.getElem?_set_self hlt]⟩
    · exact ⟨v', by rw [List.getElem?_set_ne e]; exact hi⟩
  intro j k1 v1 hj
  by_cases e : pos k (p + 1) (2 ^ p) n = j
  · rw [← e, List.getElem?_set_self hlt] at hj
    simp only [Option.some.injEq, Prod.mk.injEq] at hj
    obtain ⟨rfl, rfl⟩ := hj
    refine ⟨n, hn, e, ?_⟩
    intro m hm
    obtain ⟨k', v', h1, h2⟩ := hprev m hm
    obtain ⟨v'', h3⟩ := keep _ _ _ h1
    exact ⟨k', v'', h3, h2⟩
  · rw [List.getElem?_set_ne e] at hj
    obtain ⟨n1, hn1, hp1, hm1⟩ := h j k1 v1 hj
    refine ⟨n1, hn1, hp1, ?_⟩
    intro m hm
    obtain ⟨k', v', h1, h2⟩ := hm1 m hm
    obtain ⟨v'', h3⟩ := keep _ _ _ h1
    exact ⟨k', v'', h3, h2⟩

theorem mem_set_iff {slots : List (Slot V)} {j k : Nat} {v : V} (hj : j < slots.length)
    (hcur : ∀ k' v', slots[j]? = some (some (k', v')) → k' = k)
    (hother : ∀ i v', slots[i]? = some (some (k, v')) → i = j) (k1 : Nat) (v1 : V) :
    some (k1, v1) ∈ slots.set j (some (k, v)) ↔
      (if k1 = k then some v1 = some v else some (k1, v1) ∈ slots) := by
  constructor
  · intro h
    obtain ⟨i, hi⟩ := List.mem_iff_getElem?.mp h
    by_cases e : j = i
    · subst e
      rw [List.getElem?_set_self hj] at hi
      simp only [Option.some.injEq, Prod.mk.injEq] at hi
      obtain ⟨rfl, rfl⟩ := hi
      simp
    · rw [List.getElem?_set_ne e] at hi
      split
      · next e' => subst e'; exact absurd (hother i v1 hi).symm e
      · exact List.mem_iff_getElem?.mpr ⟨i, hi⟩
  · intro h
    split at h
    · next e =>
      subst e
      cases h
      exact List.mem_iff_getElem?.mpr ⟨j, List.getElem?_set_self hj⟩
    · next e =>
      obtain ⟨i, hi⟩ := List.mem_iff_getElem?.mp h
      refine List.mem_iff_getElem?.mpr ⟨i, ?_⟩
      by_cases e' : j = i
      · subst e'; exact absurd (hcur k1 v1 hi) e
      · rw [List.getElem?_set_ne e']; exact hi

theorem upd_eq_iff {f : Nat → Option V} {k : Nat} {v : V} {k1 : Nat} {v1 : V} {P : Prop}
    (h : f k1 = some v1 ↔ P) :
    upd f k v k1 = some v1 ↔ (if k1 = k then some v1 = some v else P) := by
  unfold upd
  split
  · constructor <;> intro e <;> exact e.symm
  · exact h

/-- Storing in the slot where the search ended keeps a hashed table in shape. -/
theorem rep_set {p : Nat} {slots : List (Slot V)} {f : Nat → Option V}
    (h : Rep (.hash (p + 1) slots) f) {k n : Nat} (v : V) (hn : n < 2 ^ p)
    (hcur : ∀ k' v', slots[pos k (p + 1) (2 ^ p) n]? = some (some (k', v')) → k' = k)
    (hprev : ∀ m < n, ∃ (k' : Nat) (v' : V),
      slots[pos k (p + 1) (2 ^ p) m]? = some (some (k', v')) ∧ k' ≠ k)
    (hother : ∀ i v', slots[i]? = some (some (k, v')) → i = pos k (p + 1) (2 ^ p) n)
    (hc : 4 * count (slots.set (pos k (p + 1) (2 ^ p) n) (some (k, v))) ≤ 3 * 2 ^ p) :
    Rep (.hash (p + 1) (slots.set (pos k (p + 1) (2 ^ p) n) (some (k, v)))) (upd f k v) := by
  obtain ⟨⟨q, hq, hp, hl, -, hpath⟩, hm⟩ := h
  obtain rfl : p = q := by omega
  refine ⟨⟨p, rfl, hp, by rw [List.length_set]; exact hl, hc,
    path_set hl hpath v hn hcur hprev⟩, ?_⟩
  intro k1 v1
  have hlt : pos k (p + 1) (2 ^ p) n < slots.length := by rw [hl]; exact pos_lt
  rw [upd_eq_iff (hm k1 v1)]
  exact (mem_set_iff hlt hcur hother k1 v1).symm

/-! ### Refilling -/

/-- No key occurs with two values. -/
def Functional (slots : List (Slot V)) : Prop :=
  ∀ k v v', some (k, v) ∈ slots → some (k, v') ∈ slots → v = v'

theorem Rep.functional {d : Ckd V} {f : Nat → Option V} (h : Rep d f) :
    Functional (slotsOf d) := by
  intro k v v' h1 h2
  have e1 := (h.2 k v).mpr h1
  have e2 := (h.2 k v').mpr h2
  rw [e1] at e2
  exact Option.some.inj e2

/-- The map read off a list of slots, on top of another one. -/
def updAll (f : Nat → Option V) : List (Slot V) → Nat → Option V
  | [] => f
  | none :: l => updAll f l
  | some (k, v) :: l => updAll (upd f k v) l

theorem updAll_iff {l : List (Slot V)} : ∀ {f : Nat → Option V} (_ : Functional l) (k : Nat) (v : V),
    updAll f l k = some v ↔ some (k, v) ∈ l ∨ ((∀ v', some (k, v') ∉ l) ∧ f k = some v) := by
  induction l with
  | nil => intro f _ k v; simp [updAll]
  | cons a l ih =>
    intro f hf k v
    have hf' : Functional l := fun k v v' h1 h2 =>
      hf k v v' (List.mem_cons_of_mem _ h1) (List.mem_cons_of_mem _ h2)
    cases a with
    | none =>
      simp only [updAll]
      rw [ih hf' k v]
      simp
    | some x =>
      obtain ⟨k0, v0⟩ := x
      simp only [updAll]
      rw [ih hf' k v]
      simp only [List.mem_cons, Option.some.injEq, Prod.mk.injEq]
      unfold upd
      by_cases e : k = k0
      · subst e
        simp only [true_and, if_true]
        constructor
        · rintro (h | ⟨-, h⟩)
          · exact Or.inl (Or.inr h)
          · exact Or.inl (Or.inl (Option.some.inj h).symm)
        · rintro (h | ⟨h, -⟩)
          · rcases h with h | h
            · subst h
              by_cases hx : ∃ v', some (k, v') ∈ l
              · obtain ⟨v', hv'⟩ := hx
                have := hf k v v' List.mem_cons_self (List.mem_cons_of_mem _ hv')
                subst this
                exact Or.inl hv'
              · push Not at hx
                exact Or.inr ⟨hx, rfl⟩
            · exact Or.inl h
          · exact absurd (Or.inl rfl) (h v0)
      · simp [e]

theorem updAll_none_iff {l : List (Slot V)} (hf : Functional l) (k : Nat) (v : V) :
    updAll (fun _ => none) l k = some v ↔ some (k, v) ∈ l := by
  rw [updAll_iff hf]
  simp

/-- The copying loop. -/
def refillWith (fuel : Nat) (slots : List (Slot V)) (nd : Option (Ckd V)) : Option (Ckd V) :=
  slots.foldl (fun nd s => match s with
    | none => nd
    | some (k, w) => nd.bind fun nd => add fuel nd k w) nd

/-- The number of keys in a table. -/
def cnt (d : Ckd V) : Nat := count (slotsOf d)

/-- `add fuel` works on all tables in `G` with at most `c` keys. -/
def AddOK (fuel : Nat) (G : Ckd V → Prop) (c : Nat) : Prop :=
  ∀ (d : Ckd V) (f : Nat → Option V) (k : Nat) (v : V), G d → Rep d f → cnt d ≤ c →
    ∃ d', add fuel d k v = some d' ∧ G d' ∧ Rep d' (upd f k v) ∧ cnt d' ≤ cnt d + 1

theorem refill_ok {fuel c : Nat} {G : Ckd V → Prop} (h : AddOK fuel G c) :
    ∀ (l : List (Slot V)) (nd : Ckd V) (f : Nat → Option V), G nd → Rep nd f →
      cnt nd + count l ≤ c + 1 →
      ∃ nd', refillWith fuel l (some nd) = some nd' ∧ G nd' ∧ Rep nd' (updAll f l) ∧
        cnt nd' ≤ cnt nd + count l := by
  intro l
  induction l with
  | nil => intro nd f hg hr _; exact ⟨nd, rfl, hg, hr, by omega⟩
  | cons a l ih =>
    intro nd f hg hr hc
    cases a with
    | none =>
      have e : count (none :: l : List (Slot V)) = count l := by simp [count]
      rw [e] at hc ⊢
      exact ih nd f hg hr hc
    | some x =>
      obtain ⟨k, v⟩ := x
      have e : count (some (k, v) :: l) = count l + 1 := by simp [count]
      rw [e] at hc ⊢
      obtain ⟨d', h1, h2, h3, h4⟩ := h nd f k v hg hr (by omega)
      obtain ⟨nd', h5, h6, h7, h8⟩ := ih d' (upd f k v) h2 h3 (by omega)
      refine ⟨nd', ?_, h6, h7, by omega⟩
      unfold refillWith at h5 ⊢
      rw [List.foldl_cons]
      simp only [Option.bind_some, h1]
      exact h5

/-- Contents agree, so the map may be replaced. -/
theorem Rep.congr {d : Ckd V} {f g : Nat → Option V} (h : Rep d f) (e : ∀ k, f k = g k) :
    Rep d g := ⟨h.1, fun k v => by rw [← e]; exact h.2 k v⟩

theorem opt_ext {f g : Nat → Option V} {P : Nat → V → Prop} (hf : ∀ k v, f k = some v ↔ P k v)
    (hg : ∀ k v, g k = some v ↔ P k v) (k : Nat) : f k = g k := by
  rcases h1 : f k with _ | v
  · rcases h2 : g k with _ | v
    · rfl
    · rw [← h1, (hf k v).mpr ((hg k v).mp h2)]
  · rw [(hg k v).mpr ((hf k v).mp h1)]

theorem count_empties (n : Nat) : count (empties n : List (Slot V)) = 0 := by
  unfold count empties
  rw [List.filter_eq_nil_iff.mpr]
  · rfl
  · intro a ha
    rw [List.eq_of_mem_replicate ha]
    simp

theorem rep_makeHashed {p : Nat} (hp : 4 ≤ p) :
    Rep (makeHashed (p + 1) : Ckd V) (fun _ => none) := by
  have hl : (empties (2 ^ (p + 1)) : List (Slot V)).length = 2 ^ p := by
    unfold empties
    rw [List.length_replicate, Nat.pow_succ]; omega
  refine ⟨⟨p, rfl, hp, hl, by rw [count_empties]; omega, ?_⟩, ?_⟩
  · intro j k v hj
    have := List.eq_of_mem_replicate (List.mem_iff_getElem?.mpr ⟨j, hj⟩)
    cases this
  · intro k v
    simp only [reduceCtorEq, false_iff]
    intro h
    have := List.eq_of_mem_replicate h
    cases this

/-- Hashed, with at least `2^p` slots. -/
def HashGe (p : Nat) (d : Ckd V) : Prop := ∃ q slots, p ≤ q ∧ d = .hash (q + 1) slots

theorem add_grow {fuel p : Nat} {slots : List (Slot V)} {f : Nat → Option V} {k : Nat} {v : V}
    (hr : Rep (.hash (p + 1) slots) f) (hp : 4 ≤ p)
    (hH : AddOK (V := V) fuel (HashGe (p + 1)) (count slots)) :
    ∃ d', ((refillWith fuel slots (some (makeHashed (p + 1 + 1)))).bind
        fun nd => add fuel nd k v) = some d' ∧
      HashGe p d' ∧ Rep d' (upd f k v) ∧ cnt d' ≤ count slots + 1 := by
  have hc0 : cnt (makeHashed (p + 1 + 1) : Ckd V) = 0 := count_empties _
  obtain ⟨nd, h1, h2, h3, h4⟩ := refill_ok hH slots (makeHashed (p + 1 + 1)) (fun _ => none)
    ⟨p + 1, _, le_refl _, rfl⟩ (rep_makeHashed (by omega)) (by omega)
  have h3' : Rep nd f := h3.congr (fun k => opt_ext
    (fun k v => updAll_none_iff hr.functional k v) (fun k v => hr.2 k v) k)
  obtain ⟨d', h5, h6, h7, h8⟩ := hH nd f k v h2 h3' (by omega)
  refine ⟨d', by rw [h1]; exact h5, ?_, h7, by omega⟩
  obtain ⟨q, s, hq, rfl⟩ := h6
  exact ⟨q, s, by omega, rfl⟩

theorem enlarge_false {slots : List (Slot V)} {p probes : Nat} (hp : 4 ≤ p)
    (hl : slots.length = 2 ^ p) (h : enlarge slots probes = false) :
    4 * (count slots + 1) ≤ 3 * 2 ^ p := by
  obtain ⟨q, rfl⟩ : ∃ q, p = q + 4 := ⟨p - 4, by omega⟩
  have hq : 0 < 2 ^ q := Nat.pow_pos (by omega)
  have e : 2 ^ (q + 4) = 16 * 2 ^ q := by rw [Nat.pow_add]; ring
  unfold enlarge ckdSize at h
  rw [hl, e] at h
  rw [e]
  simp only [Nat.shiftRight_eq_div_pow] at h
  generalize 2 ^ q = a at *
  generalize count slots = b at *
  split at h
  · next h' => omega
  · split at h
    · next h' => omega
    · simp only [Bool.or_eq_false_iff, decide_eq_false_iff_not] at h
      omega

theorem enlarge_true {slots : List (Slot V)} {p probes : Nat}
    (hl : slots.length = 2 ^ p) (h : enlarge slots probes = true) :
    2 ^ p < 4 * count slots := by
  unfold enlarge ckdSize at h
  rw [hl] at h
  simp only [Nat.shiftRight_eq_div_pow] at h
  split at h
  · cases h
  · next h' => omega

/-- One addition to a hashed table, given that additions to larger ones work if need be. -/
theorem add_hash {fuel p c : Nat}
    (hH : 4 * c ≤ 2 ^ p ∨ ∀ p', p ≤ p' → AddOK (V := V) fuel (HashGe (p' + 1)) c) :
    AddOK (V := V) (fuel + 1) (HashGe p) c := by
  rintro d f k v ⟨q, slots, hq, rfl⟩ hr hc
  have hr' := hr
  obtain ⟨⟨q', hqq, hp, hl, hcnt, hpath⟩, hm⟩ := hr
  obtain rfl : q = q' := by omega
  by_cases hk : ∃ v', some (k, v') ∈ slots
  · obtain ⟨v', hv'⟩ := hk
    obtain ⟨j, hj⟩ := List.mem_iff_getElem?.mp hv'
    obtain ⟨n, hn, hpj, hprev⟩ := hpath j k v' hj
    have hs := search_hit hl hpath hj
    have hset : setAt slots (2 * j) k v = slots.set (pos k (q + 1) (2 ^ q) n) (some (k, v)) := by
      unfold setAt; rw [hpj, show 2 * j / 2 = j by omega]
    have hcs : count (slots.set (pos k (q + 1) (2 ^ q) n) (some (k, v))) = count slots := by
      rw [hpj]; exact count_set_some hj
    refine ⟨.hash (q + 1) (setAt slots (2 * j) k v), ?_, ⟨q, _, hq, rfl⟩, ?_, ?_⟩
    · simp only [add, hs]
    · rw [hset]
      refine rep_set hr' v hn ?_ hprev ?_ ?_
      · intro k1 v1 h1
        rw [hpj, hj] at h1
        simp only [Option.some.injEq, Prod.mk.injEq] at h1
        exact h1.1.symm
      · intro i v1 hi
        rw [hpj]
        obtain ⟨n1, hn1, hp1, hprev1⟩ := hpath i k v1 hi
        have : n1 = n := by
          rcases Nat.lt_trichotomy n1 n with h | h | h
          · obtain ⟨a, b, h1, h2⟩ := hprev n1 h
            rw [hp1, hi] at h1
            simp only [Option.some.injEq, Prod.mk.injEq] at h1
            exact absurd h1.1.symm h2
          · exact h
          · obtain ⟨a, b, h1, h2⟩ := hprev1 n h
            rw [hpj, hj] at h1
            simp only [Option.some.injEq, Prod.mk.injEq] at h1
            exact absurd h1.1.symm h2
        rw [← hp1, this, hpj]
      · rw [hcs]; exact hcnt
    · unfold cnt slotsOf
      rw [hset]
      simp only
      omega
  · push Not at hk
    obtain ⟨n, hn, hs, hnone, hprev⟩ := search_empty hl hk (Inv.none_mem hl hcnt)
    have hset : setAt slots (2 * pos k (q + 1) (2 ^ q) n) k v
        = slots.set (pos k (q + 1) (2 ^ q) n) (some (k, v)) := by
      unfold setAt
      rw [show 2 * pos k (q + 1) (2 ^ q) n / 2 = pos k (q + 1) (2 ^ q) n by omega]
    have hcle := count_set_le slots (pos k (q + 1) (2 ^ q) n) (some (k, v))
    cases hen : enlarge slots n with
    | true =>
      have hbig := enlarge_true hl hen
      have hpow : 2 ^ p ≤ 2 ^ q := Nat.pow_le_pow_right (by omega) hq
      have hc' : count slots ≤ c := hc
      have hH' : AddOK (V := V) fuel (HashGe (q + 1)) (count slots) := by
        rcases hH with h | h
        · omega
        · intro d f k v h1 h2 h3
          exact h q hq d f k v h1 h2 (le_trans h3 hc')
      obtain ⟨d', h1, ⟨q2, s2, hq2, rfl⟩, h3, h4⟩ := add_grow (k := k) (v := v) hr' hp hH'
      refine ⟨_, ?_, ⟨q2, s2, by omega, rfl⟩, h3, h4⟩
      simp only [add, hs, hen, if_true]
      exact h1
    | false =>
      have hsmall := enlarge_false hp hl hen
      refine ⟨.hash (q + 1) (setAt slots (2 * pos k (q + 1) (2 ^ q) n) k v), ?_,
        ⟨q, _, hq, rfl⟩, ?_, ?_⟩
      · simp only [add, hs, hen]
        rfl
      · rw [hset]
        refine rep_set hr' v hn ?_ hprev ?_ ?_
        · intro k1 v1 h1
          rw [hnone] at h1
          simp at h1
        · intro i v1 hi
          exact absurd (List.mem_iff_getElem?.mpr ⟨i, hi⟩) (hk v1)
        · omega
      · unfold cnt slotsOf
        rw [hset]
        exact hcle

theorem level1 {fuel p c : Nat} (h : 4 * c ≤ 2 ^ p) : AddOK (V := V) (fuel + 1) (HashGe p) c :=
  add_hash (Or.inl h)

theorem level2 {fuel p c : Nat} (h : 8 * c ≤ 3 * 2 ^ p) :
    AddOK (V := V) (fuel + 2) (HashGe p) c := by
  apply add_hash
  right
  intro p' hp'
  apply level1
  have : 2 ^ p ≤ 2 ^ p' := Nat.pow_le_pow_right (by omega) hp'
  rw [Nat.pow_succ]; omega

theorem level3 {fuel p c : Nat} (h : 4 * c ≤ 3 * 2 ^ p) :
    AddOK (V := V) (fuel + 3) (HashGe p) c := by
  apply add_hash
  right
  intro p' hp'
  apply level2
  have : 2 ^ p ≤ 2 ^ p' := Nat.pow_le_pow_right (by omega) hp'
  rw [Nat.pow_succ]; omega

/-! ### Linear tables -/

theorem linearAdd_spec {k : Nat} {v : V} : ∀ (ks : List (Nat × V)) (n : Nat),
    (ks.map Prod.fst).Nodup →
    (linearAdd k v (ks.map some ++ List.replicate n none) = none ∧ n = 0 ∧
        ∀ w, (k, w) ∉ ks) ∨
    (∃ (ks' : List (Nat × V)) (n' : Nat), linearAdd k v (ks.map some ++ List.replicate n none)
        = some (ks'.map some ++ List.replicate n' none) ∧
      (ks'.map Prod.fst).Nodup ∧ ks'.length + n' = ks.length + n ∧ ks'.length ≤ ks.length + 1 ∧
      (∀ k1, k1 ∈ ks'.map Prod.fst → k1 = k ∨ k1 ∈ ks.map Prod.fst) ∧
      ∀ k1 v1, (k1, v1) ∈ ks' ↔ if k1 = k then some v1 = some v else (k1, v1) ∈ ks) := by
  intro ks
  induction ks with
  | nil =>
    intro n _
    cases n with
    | zero => left; simp [linearAdd]
    | succ n =>
      right
      refine ⟨[(k, v)], n, ?_, by simp, by simp; omega, by simp, by simp, ?_⟩
      · simp [linearAdd, List.replicate_succ]
      · intro k1 v1
        simp only [List.mem_singleton, Prod.mk.injEq, List.not_mem_nil]
        split
        · next e => simp [e]
        · next e => simp [e]
  | cons a ks ih =>
    intro n hnd
    obtain ⟨k0, w0⟩ := a
    simp only [List.map_cons, List.nodup_cons] at hnd
    by_cases e : k0 = k
    · subst e
      right
      refine ⟨(k0, v) :: ks, n, ?_, ?_, by simp, by simp, ?_, ?_⟩
      · simp [linearAdd]
      · simp only [List.map_cons, List.nodup_cons]; exact hnd
      · intro k1 h1
        simp only [List.map_cons, List.mem_cons] at h1
        rcases h1 with h1 | h1
        · exact Or.inl h1
        · right
          simp only [List.map_cons, List.mem_cons]
          exact Or.inr h1
      · intro k1 v1
        simp only [List.mem_cons, Prod.mk.injEq]
        split
        · next e =>
          subst e
          constructor
          · rintro (h | h)
            · rw [h.2]
            · exact absurd (List.mem_map_of_mem (f := Prod.fst) h) hnd.1
          · intro h; left; exact ⟨rfl, Option.some.inj h⟩
        · next e => simp [e]
    · rcases ih n hnd.2 with ⟨h1, h2, h3⟩ | ⟨ks', n', h1, h2, h3, h4, h5, h6⟩
      · left
        refine ⟨?_, h2, ?_⟩
        · simp only [List.map_cons, List.cons_append, linearAdd, e, if_false, h1]
          rfl
        · intro w hw
          rcases List.mem_cons.mp hw with h | h
          · exact e (congrArg Prod.fst h).symm
          · exact h3 w h
      · right
        refine ⟨(k0, w0) :: ks', n', ?_, ?_, by simp; omega, by simp; omega, ?_, ?_⟩
        · simp only [List.map_cons, List.cons_append, linearAdd, e, if_false, h1]
          rfl
        · simp only [List.map_cons, List.nodup_cons]
          refine ⟨?_, h2⟩
          intro hk0
          rcases h5 k0 hk0 with h | h
          · exact e h
          · exact hnd.1 h
        · intro k1 hk1
          simp only [List.map_cons, List.mem_cons] at hk1 ⊢
          rcases hk1 with h | h
          · exact Or.inr (Or.inl h)
          · rcases h5 k1 h with h | h
            · exact Or.inl h
            · exact Or.inr (Or.inr h)
        · intro k1 v1
          simp only [List.mem_cons, Prod.mk.injEq]
          rw [h6 k1 v1]
          split
          · next e' =>
            subst e'
            have : k1 ≠ k0 := fun h => e h.symm
            simp [this]
          · rfl

theorem count_lin (ks : List (Nat × V)) (n : Nat) :
    count (ks.map some ++ List.replicate n none) = ks.length := by
  unfold count
  rw [List.filter_append]
  have h1 : (ks.map some : List (Slot V)).filter Option.isSome = ks.map some := by
    rw [List.filter_eq_self]; intro a ha
    obtain ⟨x, -, rfl⟩ := List.mem_map.mp ha
    rfl
  have h2 : (List.replicate n none : List (Slot V)).filter Option.isSome = [] := by
    rw [List.filter_eq_nil_iff]; intro a ha
    rw [List.eq_of_mem_replicate ha]; simp
  rw [h1, h2]
  simp

theorem mem_lin (ks : List (Nat × V)) (n : Nat) (k : Nat) (v : V) :
    some (k, v) ∈ (ks.map some ++ List.replicate n none : List (Slot V)) ↔ (k, v) ∈ ks := by
  simp [List.mem_append, List.mem_replicate]

/-- Linear, with `n` slots. -/
def LinEq (n : Nat) (d : Ckd V) : Prop := ∃ slots, d = .lin slots ∧ slots.length = n

/-- An addition to a linear table with room. -/
theorem lin_room {fuel n : Nat} : AddOK (V := V) (fuel + 1) (LinEq (n + 1)) n := by
  rintro d f k v ⟨slots, rfl, hlen⟩ ⟨⟨hle, ks, m, rfl, hnd⟩, hm⟩ hc
  have hc' : ks.length ≤ n := by
    have : cnt (.lin (ks.map some ++ List.replicate m none) : Ckd V) = ks.length := count_lin ks m
    omega
  simp only [List.length_append, List.length_map, List.length_replicate] at hlen
  rcases linearAdd_spec (k := k) (v := v) ks m hnd with ⟨-, h2, -⟩ |
    ⟨ks', n', h1, h2, h3, h4, -, h6⟩
  · omega
  · refine ⟨.lin (ks'.map some ++ List.replicate n' none), ?_, ⟨_, rfl, by simp; omega⟩,
      ⟨⟨by simp at hle ⊢; omega, ks', n', rfl, h2⟩, ?_⟩, ?_⟩
    · simp only [add, h1]
    · intro k1 v1
      rw [upd_eq_iff (hm k1 v1)]
      simp only [slotsOf, mem_lin]
      exact (h6 k1 v1).symm
    · have e1 : cnt (.lin (ks'.map some ++ List.replicate n' none) : Ckd V) = ks'.length :=
        count_lin ks' n'
      have e2 : cnt (.lin (ks.map some ++ List.replicate m none) : Ckd V) = ks.length :=
        count_lin ks m
      omega

theorem rep_makeLinear {n : Nat} (hn : n < 10) :
    Rep (makeLinear n : Ckd V) (fun _ => none) := by
  refine ⟨⟨by simp [empties]; omega, [], n / 2, rfl, by simp⟩, ?_⟩
  intro k v
  simp only [reduceCtorEq, false_iff]
  intro h
  have := List.eq_of_mem_replicate h
  cases this

/-- Growing a full linear table. -/
theorem grow_lin {fuel c : Nat} {G : Ckd V → Prop} {slots : List (Slot V)} {f : Nat → Option V}
    {k : Nat} {v : V} {nd : Ckd V} (hr : Rep (.lin slots) f) (hG : G nd)
    (hnd : Rep nd (fun _ => none)) (h0 : cnt nd = 0)
    (hc : count slots ≤ c) (hH : AddOK fuel G c) :
    ∃ d', ((refillWith fuel slots (some nd)).bind fun nd => add fuel nd k v) = some d' ∧
      Rep d' (upd f k v) := by
  obtain ⟨nd', h1, h2, h3, h4⟩ := refill_ok hH slots nd (fun _ => none) hG hnd (by omega)
  have h3' : Rep nd' f := h3.congr (fun k => opt_ext
    (fun k v => updAll_none_iff hr.functional k v) (fun k v => hr.2 k v) k)
  obtain ⟨d', h5, h6, h7, h8⟩ := hH nd' f k v h2 h3' (by omega)
  exact ⟨d', by rw [h1]; exact h5, h7⟩

theorem add_lin {fuel : Nat} {slots : List (Slot V)} {f : Nat → Option V} {k : Nat} {v : V}
    (hr : Rep (.lin slots) f) :
    ∃ d', add (fuel + 2) (.lin slots) k v = some d' ∧ Rep d' (upd f k v) := by
  have hr' := hr
  obtain ⟨⟨hle, ks, m, rfl, hnd⟩, hm⟩ := hr
  rcases linearAdd_spec (k := k) (v := v) ks m hnd with ⟨h1, rfl, -⟩ |
    ⟨ks', n', h1, h2, h3, h4, -, h6⟩
  · have hlen : (ks.map some ++ List.replicate 0 none : List (Slot V)).length = ks.length := by
      simp
    have hcount := count_lin ks 0
    generalize hs : (ks.map some ++ List.replicate 0 none : List (Slot V)) = slots at *
    have hadd : add (fuel + 2) (.lin slots) k v
        = (refillWith (fuel + 1) slots (some (grownLinear slots))).bind
            fun nd => add (fuel + 1) nd k v := by
      rw [add]
      simp only [h1]
      rfl
    rw [hadd]
    by_cases hbig : 2 * slots.length + 4 < 10
    · have hg : (grownLinear slots : Ckd V) = makeLinear (2 * slots.length + 4) := by
        unfold grownLinear ckdSize growthIncrement linearLimit
        simp [hbig]
      rw [hg]
      refine grow_lin (c := slots.length + 1) (G := LinEq (slots.length + 1 + 1)) hr' ?_
        (rep_makeLinear hbig) (count_empties _) (by omega) lin_room
      exact ⟨_, rfl, by simp [empties]; omega⟩
    · have hn : slots.length = 3 ∨ slots.length = 4 := by omega
      have hg : (grownLinear slots : Ckd V) = makeHashed 5 := by
        unfold grownLinear ckdSize growthIncrement linearLimit
        rcases hn with h | h <;> rw [h] <;> rfl
      rw [hg]
      refine grow_lin (c := 4) (G := HashGe 4) hr' ⟨4, _, le_refl _, rfl⟩
        (rep_makeHashed (p := 4) (le_refl _)) (count_empties _) (by omega) (level1 (by omega))
  · refine ⟨.lin (ks'.map some ++ List.replicate n' none), ?_,
      ⟨⟨by simp at hle ⊢; omega, ks', n', rfl, h2⟩, ?_⟩⟩
    · simp only [add, h1]
    · intro k1 v1
      rw [upd_eq_iff (hm k1 v1)]
      simp only [slotsOf, mem_lin]
      exact (h6 k1 v1).symm

/-- Any addition to any well-formed table. -/
theorem add_rep {fuel : Nat} {d : Ckd V} {f : Nat → Option V} (hr : Rep d f) (k : Nat) (v : V) :
    ∃ d', add (fuel + 3) d k v = some d' ∧ Rep d' (upd f k v) := by
  cases d with
  | mono s =>
    rcases s with _ | ⟨k0, w0⟩
    · refine ⟨.mono (some (k, v)), rfl, trivial, ?_⟩
      intro k1 v1
      rw [upd_eq_iff (hr.2 k1 v1)]
      simp only [slotsOf, List.mem_singleton, Option.some.injEq, Prod.mk.injEq, reduceCtorEq]
      split <;> simp [*]
    · by_cases e : k0 = k
      · subst e
        refine ⟨.mono (some (k0, v)), by simp [add], trivial, ?_⟩
        intro k1 v1
        rw [upd_eq_iff (hr.2 k1 v1)]
        simp only [slotsOf, List.mem_singleton, Option.some.injEq, Prod.mk.injEq]
        split
        · next e => simp [e]
        · next e => simp [e]
      · have hG : LinEq 1 (makeLinear 2 : Ckd V) := ⟨_, rfl, by simp [empties]⟩
        obtain ⟨d1, h1, ⟨s1, rfl, -⟩, h3, -⟩ := lin_room (fuel := fuel + 1) (n := 0) (makeLinear 2)
          (fun _ => none) k0 w0 hG (rep_makeLinear (by omega)) (le_of_eq (count_empties _))
        have h3' : Rep (.lin s1) f := by
          refine h3.congr (fun k1 => ?_)
          unfold upd
          split
          · next e1 => subst e1; exact ((hr.2 _ w0).mpr (by simp [slotsOf])).symm
          · next e1 =>
            rcases hf : f k1 with _ | v1
            · rfl
            · have := (hr.2 k1 v1).mp hf
              simp only [slotsOf, List.mem_singleton, Option.some.injEq, Prod.mk.injEq] at this
              exact absurd this.1 e1
        obtain ⟨d2, h5, h6⟩ := add_lin (fuel := fuel) (k := k) (v := v) h3'
        refine ⟨d2, ?_, h6⟩
        simp only [add] at h1 ⊢
        simp only [e, if_false]
        rw [h1]
        exact h5
  | lin slots => exact add_lin (fuel := fuel + 1) hr
  | hash L slots =>
    obtain ⟨p, rfl, hp, hl, hc, hpath⟩ := hr.1
    obtain ⟨d', h1, -, h3, -⟩ := level3 (fuel := fuel) (p := p) (c := count slots) hc
      (.hash (p + 1) slots) f k v ⟨p, slots, le_refl _, rfl⟩ hr (le_refl _)
    exact ⟨d', h1, h3⟩

theorem log2sizeFrom_ge (s : Nat) : ∀ fuel i, i + 1 ≤ log2sizeFrom s fuel i
  | 0, i => le_refl _
  | fuel + 1, i => by
    unfold log2sizeFrom
    split
    · exact le_refl _
    · have := log2sizeFrom_ge s fuel (i + 1); omega

theorem rep_makeInitial (n : Nat) : Rep (makeInitial n : Ckd V) (fun _ => none) := by
  unfold makeInitial
  split
  · obtain ⟨p, hp⟩ : ∃ p, log2sizeFor (2 * n) = p + 1 :=
      ⟨log2sizeFor (2 * n) - 1, by
        have := log2sizeFrom_ge (2 * n) (2 * n) 4; unfold log2sizeFor; omega⟩
    rw [hp]
    apply rep_makeHashed
    have := log2sizeFrom_ge (2 * n) (2 * n) 4
    unfold log2sizeFor at hp
    omega
  · next h =>
    apply rep_makeLinear
    unfold clear3 linearLimit at *
    omega

theorem rep_makeByClass (n : Nat) : Rep (makeByClass n : Ckd V) (fun _ => none) := by
  unfold makeByClass
  split
  · exact ⟨trivial, by intro k v; simp [slotsOf]⟩
  · exact rep_makeInitial n

end Verif.Dispatch.Table
