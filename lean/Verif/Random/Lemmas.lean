import Verif.Random.Spec

namespace Verif.Random

/-- What is true of the vector of each generator. -/
structure Inv (a : Fin 54 → Nat) : Prop where
  small : ∀ j, a j < 2 ^ 61
  equal : ∀ j i, 29 ≤ i → i < 61 → (a j).testBit i = (a j).testBit 29
  some_bit : ∀ i, i < 61 → ∃ j, (a j).testBit i = true

theorem slot_val (i : Nat) : (slot i).val = i % 54 := rfl

theorem update_same (a : Fin 54 → Nat) (j : Fin 54) (v : Nat) : update a j v j = v := by simp [update]
theorem update_other (a : Fin 54 → Nat) {j k : Fin 54} (v : Nat) (h : k ≠ j) : update a j v k = a k := by simp [update, h]

/-- The new element. -/
def newest (r : Gen) : Nat := (random29 r).1

theorem newest_bit (r : Gen) (i : Nat) : (newest r).testBit i =
    (((((r.recent (slot (r.index + 1))).testBit i).xor ((r.recent (slot (r.index + 47))).testBit i)).xor
      ((r.recent (slot (r.index + 49))).testBit i)).xor ((r.recent (slot (r.index + 52))).testBit i)) := by
  have e : ∀ b, b ≤ 54 → slot ((r.index + 1) % recentSize + (recentSize - b)) = slot (r.index + 1 + (54 - b)) := by
    intro b hb
    apply Fin.ext
    simp only [slot_val, recentSize]
    omega
  have e0 : slot (r.index + 1 + (54 - 54)) = slot (r.index + 1) := rfl
  simp only [newest, random29, tap]
  rw [e 54 (by omega), e 8 (by omega), e 6 (by omega), e 3 (by omega)]
  simp only [Nat.testBit_xor]

theorem next_recent (r : Gen) : (random29 r).2.recent = update r.recent (slot (r.index + 1)) (newest r) := by
  have e : slot ((r.index + 1) % recentSize) = slot (r.index + 1) := by
    apply Fin.ext
    simp only [slot_val, recentSize]
    omega
  show update r.recent (slot ((r.index + 1) % recentSize)) _ = _
  rw [e]
  rfl

theorem next_index (r : Gen) : (random29 r).2.index = (r.index + 1) % 54 := rfl

theorem slot_ne (x : Nat) {d : Nat} (h1 : 0 < d) (h2 : d < 54) : slot (x + d) ≠ slot x := by
  intro h
  have := congrArg Fin.val h
  simp only [slot_val] at this
  omega

theorem inv_next {r : Gen} (h : Inv r.recent) : Inv (random29 r).2.recent := by
  rw [next_recent]
  refine ⟨?_, ?_, ?_⟩
  · intro j
    unfold update
    split
    · apply Nat.lt_pow_two_of_testBit
      intro i hi
      rw [newest_bit]
      have hz : ∀ j, (r.recent j).testBit i = false := fun j =>
        Nat.testBit_lt_two_pow (Nat.lt_of_lt_of_le (h.small j) (Nat.pow_le_pow_right (by decide) hi))
      simp [hz]
    · exact h.small j
  · intro j i h1 h2
    unfold update
    split
    · rw [newest_bit, newest_bit]
      simp only [h.equal _ i h1 h2]
    · exact h.equal j i h1 h2
  · intro i hi
    apply Classical.byContradiction
    intro hn
    have hz : ∀ j, (update r.recent (slot (r.index + 1)) (newest r) j).testBit i = false := by
      intro j
      cases hb : (update r.recent (slot (r.index + 1)) (newest r) j).testBit i with
      | false => rfl
      | true => exact absurd ⟨j, hb⟩ hn
    have hold : ∀ j, j ≠ slot (r.index + 1) → (r.recent j).testBit i = false := by
      intro j hj
      have := hz j
      rwa [update_other _ _ hj] at this
    have hnew := hz (slot (r.index + 1))
    rw [update_same, newest_bit] at hnew
    have k1 := hold (slot (r.index + 47)) (slot_ne (r.index + 1) (d := 46) (by omega) (by omega))
    have k2 := hold (slot (r.index + 49)) (slot_ne (r.index + 1) (d := 48) (by omega) (by omega))
    have k3 := hold (slot (r.index + 52)) (slot_ne (r.index + 1) (d := 51) (by omega) (by omega))
    rw [k1, k2, k3] at hnew
    simp only [Bool.xor_false] at hnew
    obtain ⟨j, hj⟩ := h.some_bit i hi
    by_cases hjj : j = slot (r.index + 1)
    · rw [hjj, hnew] at hj
      exact absurd hj (by simp)
    · rw [hold j hjj] at hj
      exact absurd hj (by simp)

theorem inv_skip : ∀ (n : Nat) (r : Gen), Inv r.recent → Inv (skip n r).recent
  | 0, _, h => h
  | n + 1, r, h => inv_skip n _ (inv_next h)

theorem bit_small {v i : Nat} (h : v < 2 ^ 29) (hi : 29 ≤ i) : v.testBit i = false :=
  Nat.testBit_lt_two_pow (Nat.lt_of_lt_of_le h (Nat.pow_le_pow_right (by decide) hi))

theorem seedLoop_inv : ∀ (n prev : Nat) (a : Fin 54 → Nat), n ≤ 53 → a (slot 0) = maximum →
    (∀ j, j ≠ slot 0 → a j < 2 ^ 29) →
    seedLoop n prev a (slot 0) = maximum ∧ ∀ j, j ≠ slot 0 → seedLoop n prev a j < 2 ^ 29
  | 0, _, a, _, h1, h2 => ⟨h1, h2⟩
  | n + 1, prev, a, hn, h1, h2 => by
    have hs : slot 0 ≠ slot (recentSize - (n + 1)) := by
      intro h
      have := congrArg Fin.val h
      simp only [slot_val, recentSize] at this
      omega
    simp only [seedLoop]
    apply seedLoop_inv n _ _ (by omega)
    · rw [update_other _ _ hs, h1]
    · intro j hj
      unfold update
      split
      · have := Nat.mod_lt (lcgRand prev) (show 0 < 32768 by decide)
        have := Nat.mod_lt (lcgRand (lcgRand prev)) (show 0 < 16384 by decide)
        omega
      · exact h2 j hj

theorem maximum_bit {i : Nat} (h : i < 61) : maximum.testBit i = true := by
  unfold maximum
  rw [Nat.testBit_two_pow_sub_one]
  simpa using h

theorem inv_first {a : Fin 54 → Nat} (h1 : a (slot 0) = maximum) (h2 : ∀ j, j ≠ slot 0 → a j < 2 ^ 29) : Inv a := by
  refine ⟨?_, ?_, ?_⟩
  · intro j
    by_cases hj : j = slot 0
    · rw [hj, h1]
      decide
    · have := h2 j hj
      omega
  · intro j i hi1 hi2
    by_cases hj : j = slot 0
    · rw [hj, h1, maximum_bit hi2, maximum_bit (by omega)]
    · have := h2 j hj
      rw [bit_small this hi1, bit_small this (by omega)]
  · intro i hi
    exact ⟨slot 0, by rw [h1, maximum_bit hi]⟩

theorem inv_make {seed : Int} {r : Gen} (h : makeRandom seed = some r) : Inv r.recent := by
  unfold makeRandom at h
  split at h
  · exact absurd h (by simp)
  · simp only [Option.some.injEq] at h
    obtain ⟨h1, h2⟩ := seedLoop_inv (recentSize - 1) (seed.natAbs % 32768) (update (fun _ => 0) (slot 0) maximum)
      (by decide) (update_same _ _ _) (by intro j hj; rw [update_other _ _ hj]; decide)
    have hk := inv_first h1 h2
    generalize seedLoop (recentSize - 1) (seed.natAbs % 32768) (update (fun _ => 0) (slot 0) maximum) = a at hk h
    rw [← h]
    exact inv_skip _ ⟨a, 0⟩ hk

theorem findGood_inv {limit : Nat} : ∀ (n : Nat) (r : Gen) (v : Nat) (r' : Gen), Inv r.recent →
    findGood limit n r = some (v, r') → Inv r'.recent ∧ v ≤ limit ∧ ∃ s, Inv s.recent ∧ newest s = v
  | 0, _, _, _, _, h => by simp [findGood] at h
  | n + 1, r, v, r', hi, h => by
    simp only [findGood] at h
    split at h
    · rename_i hl
      simp only [Option.some.injEq] at h
      have h1 : (random29 r).1 = v := by rw [h]
      have h2 : (random29 r).2 = r' := by rw [h]
      refine ⟨?_, by rw [← h1]; exact hl, r, hi, h1⟩
      rw [← h2]
      exact inv_next hi
    · exact findGood_inv n _ v r' (inv_next hi) h

theorem inv_made {r : Gen} (h : Made r) : Inv r.recent := by
  induction h with
  | make seed r h => exact inv_make h
  | call r _ rounds range v r' h ih =>
    unfold random at h
    split at h
    · exact absurd h (by simp)
    · split at h
      · exact absurd h (by simp)
      · rename_i w s hf
        simp only [Out.ok.injEq] at h
        rw [← h.2]
        exact (findGood_inv _ _ _ _ ih hf).1

/-- The last elements all have bit 29. -/
def Ones (t : Nat) (r : Gen) : Prop := ∀ d, d < t → (r.recent (slot (r.index + 54 - d))).testBit 29 = true

theorem newest_small {r : Gen} (h : Inv r.recent) (hb : (newest r).testBit 29 = false) : newest r < 2 ^ 29 := by
  have hi := inv_next h
  rw [next_recent] at hi
  have hs := hi.small (slot (r.index + 1))
  have he := hi.equal (slot (r.index + 1))
  rw [update_same] at hs he
  apply Nat.lt_pow_two_of_testBit
  intro i hi
  by_cases h61 : i < 61
  · rw [he i hi h61, hb]
  · exact Nat.testBit_lt_two_pow (Nat.lt_of_lt_of_le hs (Nat.pow_le_pow_right (by decide) (by omega)))

theorem ones_all {r : Gen} (h : Ones 54 r) : (newest r).testBit 29 = false := by
  have e : ∀ c, 1 ≤ c → c ≤ 54 → (r.recent (slot (r.index + c))).testBit 29 = true := by
    intro c h1 h2
    have := h (54 - c) (by omega)
    have he : r.index + 54 - (54 - c) = r.index + c := by omega
    rwa [he] at this
  rw [newest_bit, e 1 (by omega) (by omega), e 47 (by omega) (by omega), e 49 (by omega) (by omega), e 52 (by omega) (by omega)]
  rfl

theorem ones_next {r : Gen} {t : Nat} (ht : t < 54) (h : Ones t r) (hb : (newest r).testBit 29 = true) :
    Ones (t + 1) (random29 r).2 := by
  intro d hd
  rw [next_recent, next_index]
  by_cases h0 : d = 0
  · have e : slot ((r.index + 1) % 54 + 54 - d) = slot (r.index + 1) := by
      apply Fin.ext
      simp only [slot_val]
      omega
    rw [e, update_same, hb]
  · have hne : slot ((r.index + 1) % 54 + 54 - d) ≠ slot (r.index + 1) := by
      intro he
      have := congrArg Fin.val he
      simp only [slot_val] at this
      omega
    have e : slot ((r.index + 1) % 54 + 54 - d) = slot (r.index + 54 - (d - 1)) := by
      apply Fin.ext
      simp only [slot_val]
      omega
    rw [update_other _ _ hne, e]
    exact h (d - 1) (by omega)

theorem findGood_ends {limit : Nat} (hl : 2 ^ 29 ≤ limit) : ∀ (n t : Nat) (r : Gen), Inv r.recent → t ≤ 54 → Ones t r →
    55 ≤ n + t → (findGood limit n r).isSome
  | 0, t, r, _, ht, _, hn => by omega
  | n + 1, t, r, hi, ht, ho, hn => by
    simp only [findGood]
    split
    · rfl
    · rename_i hv
      have hbig : ¬ newest r < 2 ^ 29 := by
        intro hlt
        exact hv (Nat.le_trans (Nat.le_of_lt hlt) hl)
      have hb : (newest r).testBit 29 = true := by
        cases hb : (newest r).testBit 29 with
        | true => rfl
        | false => exact absurd (newest_small hi hb) hbig
      by_cases h54 : t = 54
      · subst h54
        rw [ones_all ho] at hb
        exact absurd hb (by simp)
      · exact findGood_ends hl n (t + 1) _ (inv_next hi) (by omega) (ones_next (by omega) ho hb) (by omega)

theorem limit_divides {range : Nat} (h1 : 0 < range) (h2 : range ≤ maximum) :
    range ∣ limitOf range + 1 ∧ limitOf range ≤ maximum ∧ maximum < limitOf range + range := by
  unfold limitOf
  have e : (maximum - range + 1) % range = (maximum + 1) % range := by
    have : maximum + 1 = (maximum - range + 1) + range := by omega
    rw [this, Nat.add_mod_right]
  rw [e]
  have hlt := Nat.mod_lt (maximum + 1) h1
  have hle := Nat.mod_le (maximum + 1) range
  have hdm := Nat.div_add_mod (maximum + 1) range
  generalize hq : (maximum + 1) / range = q at hdm
  generalize hm : (maximum + 1) % range = m at hdm hlt hle ⊢
  have hle' : m ≤ maximum := by omega
  refine ⟨⟨q, by omega⟩, by omega, by omega⟩

theorem limit_big {range : Nat} (h1 : 0 < range) (h2 : range ≤ maximum) : 2 ^ 29 ≤ limitOf range := by
  obtain ⟨⟨q, hq⟩, _, h3⟩ := limit_divides h1 h2
  have hq0 : q ≠ 0 := by
    intro h
    rw [h, Nat.mul_zero] at hq
    omega
  have hle : range ≤ limitOf range + 1 := by
    rw [hq]
    exact Nat.le_mul_of_pos_right _ (Nat.pos_of_ne_zero hq0)
  have hm : maximum = 2 ^ 61 - 1 := rfl
  omega

/-- The high bits of a new element are all set, or none is. -/
theorem newest_ends {r : Gen} (h : Inv r.recent) : newest r < 2 ^ 29 ∨ (2 ^ 61 - 2 ^ 29 ≤ newest r ∧ newest r < 2 ^ 61) := by
  cases hb : (newest r).testBit 29 with
  | false => exact Or.inl (newest_small h hb)
  | true =>
    right
    have hi := inv_next h
    rw [next_recent] at hi
    have hs := hi.small (slot (r.index + 1))
    have he := hi.equal (slot (r.index + 1))
    rw [update_same] at hs he
    refine ⟨?_, hs⟩
    have hdiv : newest r / 2 ^ 29 = 2 ^ 32 - 1 := by
      apply Nat.eq_of_testBit_eq
      intro i
      rw [Nat.testBit_two_pow_sub_one, ← Nat.shiftRight_eq_div_pow, Nat.testBit_shiftRight]
      by_cases h32 : i < 32
      · rw [he (29 + i) (by omega) (by omega), hb]
        simpa using h32
      · rw [Nat.testBit_lt_two_pow (Nat.lt_of_lt_of_le hs (Nat.pow_le_pow_right (by decide) (by omega)))]
        simpa using h32
    have := Nat.div_add_mod (newest r) (2 ^ 29)
    rw [hdiv] at this
    omega

end Verif.Random
