import Verif.Random.Lemmas

/-!
# C144: pseudo-random numbers
-/

namespace Verif.Random

/-- **C144.**  Every call with a positive range returns, after at most 55 steps of the generator, a number that is not
negative and is less than the range. -/
theorem random_in_range (r : Gen) (hr : Made r) (range : Int) (h1 : 0 < range) (h2 : range ≤ maximum) (rounds : Nat)
    (hn : 55 ≤ rounds) : ∃ v r', random rounds range r = .ok v r' ∧ 0 ≤ v ∧ v < range := by
  have hp : 0 < range.toNat := by omega
  have hs := findGood_ends (limit_big hp (by omega)) rounds 0 r (inv_made hr) (by omega) (fun d hd => absurd hd (by omega))
    (by omega)
  unfold random
  rw [if_neg (by omega)]
  obtain ⟨⟨v, r'⟩, hv⟩ := Option.isSome_iff_exists.1 hs
  rw [hv]
  refine ⟨_, _, rfl, by omega, ?_⟩
  have := Nat.mod_lt v hp
  omega

/-- A range that is not positive is refused. -/
theorem random_refused (r : Gen) (range : Int) (h : range ≤ 0) (rounds : Nat) : random rounds range r = .error := by
  unfold random
  rw [if_pos h]

/-- There are generators. -/
theorem generators (seed : Int) (h : -(2 ^ 61) < seed) : ∃ r, makeRandom seed = some r ∧ Made r := by
  have : (makeRandom seed).isSome := by
    unfold makeRandom
    rw [if_neg (by omega)]
    rfl
  obtain ⟨r, hr⟩ := Option.isSome_iff_exists.1 this
  exact ⟨r, hr, Made.make seed r hr⟩

/-- **C144.**  All results are equally likely among the numbers that are not rejected: each of them comes from as many
of these numbers; and less than one range of numbers is rejected. -/
theorem fair (range : Nat) (h1 : 0 < range) (h2 : range ≤ maximum) (v : Nat) (hv : v < range) :
    ((List.range (limitOf range + 1)).countP fun x => x % range = v) = (limitOf range + 1) / range ∧
      limitOf range ≤ maximum ∧ maximum - limitOf range < range := by
  obtain ⟨⟨q, hq⟩, h3, h4⟩ := limit_divides h1 h2
  refine ⟨?_, h3, by omega⟩
  rw [hq, Nat.mul_div_cancel_left _ h1]
  clear hq h4 h3
  induction q with
  | zero => simp
  | succ q ih =>
    rw [Nat.mul_succ, List.range_add, List.countP_append, ih, List.countP_map]
    congr 1
    have : ((fun x => decide (x % range = v)) ∘ fun x => range * q + x) = fun x => decide (x % range = v) := by
      funext x
      simp [Nat.mul_add_mod]
    rw [this]
    have hc : ∀ n, n ≤ range → ((List.range n).countP fun x => x % range = v) = if v < n then 1 else 0 := by
      intro n hn
      induction n with
      | zero => simp
      | succ n ihn =>
        rw [List.range_succ, List.countP_append, ihn (by omega)]
        simp only [List.countP_singleton, Nat.mod_eq_of_lt (show n < range by omega), decide_eq_true_eq]
        by_cases ha : v < n
        · rw [if_pos ha, if_neg (by omega), if_pos (by omega)]
        · by_cases hb : n = v
          · rw [if_neg ha, if_pos hb, if_pos (by omega)]
          · rw [if_neg ha, if_neg hb, if_neg (by omega)]
    rw [hc range (Nat.le_refl _), if_pos hv]

/-- Of the 2^61 numbers, those up to the limit 2^61 - 3 are taken when the range is 3. -/
example : limitOf 3 = 2 ^ 61 - 3 := by decide +kernel

/-- **C144.**  The generator never degenerates: none of its bits is zero in all of the last 54 numbers. -/
theorem never_zero (r : Gen) (hr : Made r) (i : Nat) (hi : i < 61) : ∃ j, (r.recent j).testBit i = true :=
  (inv_made hr).some_bit i hi

example : ∃ r, Made r := (generators 7 (by omega)).imp fun _ h => h.2

/-- **C144.**  The numbers depend on the last fifteen bits of the magnitude of the seed alone. -/
theorem same_seed (s t : Int) (hs : -(2 ^ 61) < s) (ht : -(2 ^ 61) < t) (h : s.natAbs % 32768 = t.natAbs % 32768) :
    makeRandom s = makeRandom t := by
  unfold makeRandom
  rw [if_neg (by omega), if_neg (by omega), h]

example : makeRandom 5 = makeRandom (-32773) := same_seed 5 (-32773) (by omega) (by omega) (by decide)

/-- **C144.**  The least integer is refused as a seed. -/
theorem least_seed_violated : makeRandom (-(2 ^ 61)) = none := by
  unfold makeRandom
  rw [if_pos rfl]

/-- **C144 is violated**: with a range that is a power of two, however large, only the 2^29 least and the 2^29 greatest
numbers of the range are ever returned, whatever the seed and the calls before. -/
theorem large_range_violated (r : Gen) (hr : Made r) (k : Nat) (h1 : 29 ≤ k) (h2 : k ≤ 60) (rounds : Nat) (v : Int)
    (r' : Gen) (h : random rounds (2 ^ k : Nat) r = .ok v r') : v < 2 ^ 29 ∨ (2 ^ k : Nat) - 2 ^ 29 ≤ v := by
  have hpos : 0 < 2 ^ k := Nat.two_pow_pos k
  unfold random at h
  rw [if_neg (by omega)] at h
  split at h
  · exact absurd h (by simp)
  · rename_i w s hf
    obtain ⟨_, _, g, hg, hw⟩ := findGood_inv _ _ _ _ (inv_made hr) hf
    simp only [Out.ok.injEq] at h
    have hv : v = ((w % 2 ^ k : Nat) : Int) := by
      rw [← h.1, Int.toNat_natCast]
    have hk : 2 ^ 29 ≤ 2 ^ k := Nat.pow_le_pow_right (by decide) h1
    have hm := Nat.mod_le w (2 ^ k)
    rcases newest_ends hg with hlt | ⟨hge, hlt⟩
    · left
      rw [hw] at hlt
      omega
    · right
      rw [hw] at hge hlt
      obtain ⟨d, hd, hd2⟩ : ∃ d, w + d = 2 ^ 61 ∧ 0 < d := ⟨2 ^ 61 - w, by omega, by omega⟩
      have h61 : 2 ^ 61 = 2 ^ k * 2 ^ (61 - k) := by rw [← Nat.pow_add]; congr 1; omega
      have hmod : (w + d) % 2 ^ k = 0 := by rw [hd, h61, Nat.mul_mod_right]
      have hd29 : d ≤ 2 ^ 29 := by omega
      have hr := Nat.mod_lt w hpos
      have hge2 : 2 ^ k ≤ w % 2 ^ k + d := by
        rcases Nat.lt_or_ge (w % 2 ^ k + d) (2 ^ k) with hlt' | h'
        · rw [← Nat.mod_add_mod, Nat.mod_eq_of_lt hlt'] at hmod
          omega
        · exact h'
      omega

/-- So of the range 2^40 no number near the middle is returned, though the range is accepted. -/
example : ∃ r, Made r ∧ (∃ v r', random 55 (2 ^ 40 : Nat) r = .ok v r') ∧
    ∀ rounds r', random rounds (2 ^ 40 : Nat) r ≠ .ok (2 ^ 39) r' := by
  obtain ⟨r, _, hm⟩ := generators 7 (by omega)
  refine ⟨r, hm, ?_, ?_⟩
  · obtain ⟨v, r', h, _⟩ := random_in_range r hm (2 ^ 40 : Nat) (by decide) (by decide) 55 (Nat.le_refl _)
    exact ⟨v, r', h⟩
  · intro rounds r' h
    have := large_range_violated r hm 40 (by omega) (by omega) rounds _ r' h
    omega

end Verif.Random
