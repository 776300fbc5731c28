import Verif.Integer.Bits
/-
Helper lemmas about shifts and bit fields of tagged words.
-/
namespace Verif.Integer

theorem ediv_pow_high {n : Int} (h : InRange n) {k : Nat} (hk : 61 ≤ k) :
    n / 2 ^ k = if n < 0 then -1 else 0 := by
  obtain ⟨h1, h2⟩ := h
  have hp : (2 : Int) ^ 61 ≤ 2 ^ k := pow_le_pow_right₀ (by norm_num) hk
  split
  · rw [Int.ediv_eq_iff_of_pos (by positivity)]; constructor <;> omega
  · exact Int.ediv_eq_zero_of_lt (by omega) (by omega)

theorem inRange_small (n : Int) (h : -65 ≤ n := by norm_num) (h' : n ≤ 65 := by norm_num) :
    InRange n := by constructor <;> omega

theorem ashRight_tag {a s : Int} (ha : InRange a) (hs : InRange s) (h0 : 0 ≤ s) :
    ashRight (tag a) (tag s) = .ok (tag (a / 2 ^ s.toNat)) := by
  rw [ashRight, ltI_tag hs (inRange_small 64)]
  by_cases h : s < 64
  · simp only [h, decide_true, if_true]
    rw [raw_tag hs, ashr, if_pos ⟨h0, h⟩, bind_ok, force_eq, BitVec.toInt_sshiftRight,
      Int.shiftRight_eq_div_pow, toInt_tag ha]
    congr 2
    push_cast
    rw [Int.ediv_ediv_of_nonneg (by positivity), mul_comm (2 ^ s.toNat),
      ← Int.ediv_ediv_of_nonneg (by norm_num)]
    congr 1; omega
  · simp only [h, decide_false]
    rw [ltI_tag ha (inRange_small 0), ediv_pow_high ha (by omega)]
    by_cases hn : a < 0 <;> simp [hn]

theorem inWord_shift_iff (a : Int) (k : Nat) : InWord (4 * a * 2 ^ k) ↔ InRange (a * 2 ^ k) := by
  rw [mul_assoc, inWord4_iff]

theorem shlO_strip {a : Int} (ha : InRange a) {s : Int} (h0 : 0 ≤ s) (h1 : s < 64) :
    shlO (strip (tag a)) s = if InRange (a * 2 ^ s.toNat) then
      .ok (BitVec.ofInt 64 (4 * (a * 2 ^ s.toNat))) else .overflow := by
  rw [shlO_eq _ h0 h1, toInt_strip_tag ha, mul_assoc]
  simp only [inWord4_iff]

theorem not_inRange_shift {a : Int} (ha : a ≠ 0) {k : Nat} (hk : 62 ≤ k) :
    ¬ InRange (a * 2 ^ k) := by
  rintro ⟨h1, h2⟩
  have hp : (2 : Int) ^ 62 ≤ 2 ^ k := pow_le_pow_right₀ (by norm_num) hk
  rcases lt_or_gt_of_ne ha with h | h
  · nlinarith
  · nlinarith

theorem ashLeft_tag {a s : Int} (ha : InRange a) (hs : InRange s) (h0 : 0 ≤ s) :
    ashLeft (tag a) (tag s) =
      if InRange (a * 2 ^ s.toNat) then .ok (tag (a * 2 ^ s.toNat)) else .overflow := by
  have fin : ∀ n : Int, InRange n → insert (BitVec.ofInt 64 (4 * n)) = tag n := fun n hn =>
    insert_eq_tag hn (toInt_ofInt ((inWord4_iff _).mpr hn))
  rw [ashLeft, ltI_tag hs (inRange_small 64)]
  by_cases h : s < 64
  · simp only [h, decide_true, if_true]
    rw [eqI_tag hs (inRange_small 64)]
    have : ¬ s = 64 := by omega
    simp only [this, decide_false]
    rw [raw_tag hs, shlO_strip ha h0 h]
    by_cases hr : InRange (a * 2 ^ s.toNat)
    · simp only [hr, if_true, bind_ok]
      simp [fin _ hr]
    · simp [hr]
  · simp only [h, decide_false, Bool.false_eq_true, if_false]
    rw [eqI_tag (inRange_small 64) (inRange_small 64)]
    simp only [decide_true, if_true]
    rw [raw_tag (inRange_small 32), shlO_strip ha (by norm_num) (by norm_num)]
    by_cases hz : a = 0
    · subst hz
      have : InRange 0 := inRange_small 0
      simp only [zero_mul, this, if_true, bind_ok, mul_zero]
      rfl
    · have hn : ¬ InRange (a * 2 ^ s.toNat) := not_inRange_shift hz (by omega)
      rw [if_neg hn]
      by_cases hr : InRange (a * 2 ^ (32 : Int).toNat)
      · rw [if_pos hr, bind_ok, shlO_eq _ (by norm_num) (by norm_num),
          toInt_ofInt ((inWord4_iff _).mpr hr), if_neg]
        · rfl
        · intro hw
          rw [inWord_shift_iff] at hw
          have e : a * 2 ^ (32 : Int).toNat * 2 ^ (32 : Int).toNat = a * 2 ^ 64 := by
            rw [mul_assoc, ← pow_add]; rfl
          rw [e] at hw
          exact not_inRange_shift hz (by norm_num) hw
      · rw [if_neg hr]; rfl

/-! ### Fields -/

theorem inRange_add2 {i : Int} (h0 : 0 ≤ i) (h : i ≤ 62) : InRange (i + 2) :=
  inRange_small _ (by omega) (by omega)

theorem plus2 {i : Int} (h0 : 0 ≤ i) (h : i ≤ 62) : plus (tag i) (tag 2) = .ok (tag (i + 2)) := by
  rw [plus_tag (inRange_small _ (by omega) (by omega)) (inRange_small 2),
    if_pos (inRange_add2 h0 h)]

theorem logbit_tag {i a : Int} (ha : InRange a) (h0 : 0 ≤ i) (h1 : i < 62) :
    logbit (tag i) (tag a) = .ok (bit a i.toNat) := by
  rw [logbit, plus2 h0 (by omega), bind_ok, raw_tag (inRange_add2 h0 (by omega)), logbitW, shl,
    if_pos ⟨by omega, by omega⟩, bind_ok, and_shl_one _ _ (by omega)]
  have : (i + 2).toNat = i.toNat + 2 := by omega
  rw [this, getLsbD_tag ha (by omega)]

theorem getLsbD_one_shl (k i : Nat) (hi : i < 64) :
    ((1 : Word) <<< k).getLsbD i = decide (i = k) := by
  rw [BitVec.getLsbD_shiftLeft]
  rcases lt_trichotomy i k with h | h | h
  · simp [h]; omega
  · subst h; simp [hi]
  · have : ¬ i = k := by omega
    have h2 : ¬ i < k := by omega
    simp [this, h2]; omega

theorem getLsbD_mask (k i : Nat) (hi : i < 64) :
    ((1 : Word) <<< k - 1).getLsbD i = decide (i < k) := by
  by_cases hk : k < 64
  · have e : (1 : Word) <<< k - 1 = BitVec.ofNat 64 (2 ^ k - 1) := by
      apply BitVec.eq_of_toNat_eq
      have hp : 2 ^ k < 2 ^ 64 := Nat.pow_lt_pow_right (by norm_num) hk
      have h1 : ((1 : Word) <<< k).toNat = 2 ^ k := by
        rw [BitVec.toNat_shiftLeft]
        rw [show (1 : Word).toNat = 1 from rfl, Nat.shiftLeft_eq, one_mul, Nat.mod_eq_of_lt hp]
      have hpos : 1 ≤ 2 ^ k := Nat.one_le_two_pow
      rw [BitVec.toNat_sub, h1, BitVec.toNat_ofNat, show (1 : Word).toNat = 1 from rfl]
      rw [show 2 ^ 64 - 1 + 2 ^ k = 2 ^ 64 + (2 ^ k - 1) by omega]
      simp
    rw [e, BitVec.getLsbD_ofNat, Nat.testBit_two_pow_sub_one]
    simp [hi]
  · have e : (1 : Word) <<< k = 0 := BitVec.shiftLeft_eq_zero (by omega)
    rw [e]
    have h2 : i < k := by omega
    have h3 : (0 - 1 : Word) = BitVec.allOnes 64 := by decide
    rw [h3, BitVec.getLsbD_allOnes]
    simp [hi, h2]

theorem getLsbD_xor_neg_one (w : Word) {i : Nat} (hi : i < 64) :
    (w ^^^ -1).getLsbD i = !w.getLsbD i := by
  rw [show (-1 : Word) = BitVec.allOnes 64 by decide, BitVec.xor_allOnes, BitVec.getLsbD_not]
  simp [hi]

theorem logbitDeposit_tag {z : Bool} {i a : Int} (ha : InRange a) (h0 : 0 ≤ i) (h1 : i < 61) :
    ∃ r, InRange r ∧ logbitDeposit z (tag i) (tag a) = .ok (tag r) ∧
      ∀ j, bit r j = if j = i.toNat then z else bit a j := by
  have hi : (i + 2).toNat = i.toNat + 2 := by omega
  have hshl : shl 1 (i + 2) = .ok ((1 : Word) <<< (i.toNat + 2)) := by
    rw [shl, if_pos ⟨by omega, by omega⟩, hi]
  have hfar : ∀ j, 61 ≤ j → (if j = i.toNat then z else bit a j) =
      (if 61 = i.toNat then z else bit a 61) := by
    intro j hj
    rw [if_neg (by omega), if_neg (by omega), bit_high ha hj, bit_high ha (le_refl _)]
  rw [logbitDeposit, plus2 h0 (by omega), bind_ok, raw_tag (inRange_add2 h0 (by omega))]
  cases z
  · simp only [Bool.false_eq_true, if_false]
    rw [logbitClearW, hshl, bind_ok]
    have hb : ∀ j, j < 64 → (tag a &&& ((1 : Word) <<< (i.toNat + 2) ^^^ -1)).getLsbD j =
        ((tag a).getLsbD j && !decide (j = i.toNat + 2)) := by
      intro j hj
      rw [BitVec.getLsbD_and, getLsbD_xor_neg_one _ hj, getLsbD_one_shl _ _ hj]
    obtain ⟨r, hr, e, hbits⟩ := exists_tag
      (w := tag a &&& ((1 : Word) <<< (i.toNat + 2) ^^^ -1))
      (by rw [hb 0 (by omega), getLsbD_tag0 ha]; simp)
      (by rw [hb 1 (by omega), getLsbD_tag1 ha]; simp)
    refine ⟨r, hr, by rw [e], bit_ext_range hr hfar ?_⟩
    intro j hj
    rw [hbits j hj, hb _ (by omega), getLsbD_tag ha hj]
    by_cases hji : j = i.toNat <;> simp [hji]
  · simp only [if_true]
    rw [logbitSetW, hshl, bind_ok]
    have hb : ∀ j, j < 64 → (tag a ||| (1 : Word) <<< (i.toNat + 2)).getLsbD j =
        ((tag a).getLsbD j || decide (j = i.toNat + 2)) := by
      intro j hj
      rw [BitVec.getLsbD_or, getLsbD_one_shl _ _ hj]
    obtain ⟨r, hr, e, hbits⟩ := exists_tag
      (w := tag a ||| (1 : Word) <<< (i.toNat + 2))
      (by rw [hb 0 (by omega), getLsbD_tag0 ha]; simp)
      (by rw [hb 1 (by omega), getLsbD_tag1 ha]; simp)
    refine ⟨r, hr, by rw [e], bit_ext_range hr hfar ?_⟩
    intro j hj
    rw [hbits j hj, hb _ (by omega), getLsbD_tag ha hj]
    by_cases hji : j = i.toNat <;> simp [hji]

theorem bitFieldExtract_tag {o z a : Int} (ha : InRange a) (ho : 0 ≤ o) (hz : 0 ≤ z) (hz' : z ≤ 61)
    (h : o + z ≤ 62 ∨ (0 ≤ a ∧ o < 64)) :
    ∃ r, InRange r ∧ bitFieldExtract (tag o) (tag z) (tag a) = .ok (tag r) ∧
      ∀ j, bit r j = (decide (j < z.toNat) && bit a (o.toNat + j)) := by
  have ho' : o < 64 := by omega
  have hzz : (z + 2).toNat = z.toNat + 2 := by omega
  rw [bitFieldExtract, plus2 hz (by omega), bind_ok, raw_tag (inRange_add2 hz (by omega)),
    raw_tag (inRange_small o (by omega) (by omega)), bitFieldExtractW, shl,
    if_pos ⟨by omega, by omega⟩, bind_ok, lshr, if_pos ⟨ho, ho'⟩, bind_ok, bind_ok]
  refine ⟨_, inRange_div4 _, by rw [force_eq], bit_ext_range (inRange_div4 _) ?_ ?_⟩
  · intro j hj
    have : ¬ j < z.toNat := by omega
    have h2 : ¬ 61 < z.toNat := by omega
    simp [this, h2]
  · intro j hj
    rw [bit_force hj, BitVec.getLsbD_and, getLsbD_mask _ _ (by omega), BitVec.getLsbD_ushiftRight,
      hzz]
    by_cases hjz : j < z.toNat
    · by_cases hin : o.toNat + j < 62
      · have e : o.toNat + (j + 2) = o.toNat + j + 2 := by omega
        rw [e, getLsbD_tag ha hin]
        simp [hjz]
      · have hpos : 0 ≤ a := by omega
        rw [BitVec.getLsbD_of_ge _ _ (by omega), bit_high ha (by omega)]
        simp; omega
    · simp [hjz]

theorem bitFieldDeposit_tag {f o z a : Int} (hf : InRange f) (ha : InRange a) (ho : 0 ≤ o)
    (hz : 0 ≤ z) (h : o + z ≤ 61) (hf0 : 0 ≤ f) (hf1 : f < 2 ^ z.toNat) :
    ∃ r, InRange r ∧ bitFieldDeposit (tag f) (tag o) (tag z) (tag a) = .ok (tag r) ∧
      ∀ j, bit r j = if o.toNat ≤ j ∧ j < o.toNat + z.toNat then bit f (j - o.toNat)
        else bit a j := by
  have hoo : (o + 2).toNat = o.toNat + 2 := by omega
  rw [bitFieldDeposit, plus2 ho (by omega), bind_ok, raw_tag (inRange_add2 ho (by omega)),
    raw_tag (inRange_small z (by omega) (by omega)), bitFieldDepositW]
  simp only [shl]
  rw [if_pos ⟨by omega, by omega⟩, if_pos ⟨by omega, by omega⟩, bind_ok, bind_ok,
    if_pos ⟨by omega, by omega⟩, bind_ok, hoo]
  set w := untag (tag f) <<< (o.toNat + 2) |||
    tag a &&& (((1 : Word) <<< z.toNat - 1) <<< (o.toNat + 2) ^^^ -1) with hw
  have hfz : ∀ k, z.toNat ≤ k → bit f k = false := by
    intro k hk
    unfold bit
    have hp : (2 : Int) ^ z.toNat ≤ 2 ^ k := pow_le_pow_right₀ (by norm_num) hk
    rw [Int.ediv_eq_zero_of_lt hf0 (by omega)]; simp
  have hb : ∀ j, j < 64 → w.getLsbD j =
      if o.toNat + 2 ≤ j ∧ j < o.toNat + 2 + z.toNat then bit f (j - (o.toNat + 2))
      else (tag a).getLsbD j := by
    intro j hj
    rw [hw, BitVec.getLsbD_or, BitVec.getLsbD_and, getLsbD_xor_neg_one _ hj,
      BitVec.getLsbD_shiftLeft, BitVec.getLsbD_shiftLeft, getLsbD_bit _ (by omega),
      toInt_untag_tag hf, getLsbD_mask _ _ (by omega)]
    by_cases h1 : j < o.toNat + 2
    · have : ¬ (o.toNat + 2 ≤ j) := by omega
      simp [h1, this]
    · by_cases h2 : j < o.toNat + 2 + z.toNat
      · have h3 : j - (o.toNat + 2) < z.toNat := by omega
        have h4 : o.toNat + 2 ≤ j := by omega
        simp [h1, h2, h3, hj, h4]
      · have h3 : ¬ j - (o.toNat + 2) < z.toNat := by omega
        have h4 : bit f (j - (o.toNat + 2)) = false := hfz _ (by omega)
        simp [h1, h2, h3, hj, h4]
  obtain ⟨r, hr, e, hbits⟩ := exists_tag (w := w)
    (by rw [hb 0 (by omega), if_neg (by omega), getLsbD_tag0 ha])
    (by rw [hb 1 (by omega), if_neg (by omega), getLsbD_tag1 ha])
  refine ⟨r, hr, by rw [e], bit_ext_range hr ?_ ?_⟩
  · intro j hj
    rw [if_neg (by omega), if_neg (by omega), bit_high ha hj, bit_high ha (le_refl _)]
  · intro j hj
    rw [hbits j hj, hb _ (by omega), getLsbD_tag ha hj]
    by_cases hc : o.toNat ≤ j ∧ j < o.toNat + z.toNat
    · rw [if_pos hc, if_pos (by omega)]
      congr 1; omega
    · rw [if_neg hc, if_neg (by omega)]

/-! ### Logical shifts -/

theorem lshRight_tag {a s : Int} (ha : InRange a) (hs : InRange s) (h0 : 0 < s) :
    lshRight (tag a) (tag s) = .ok (tag (a % 2 ^ 62 / 2 ^ s.toNat)) := by
  have hm0 := Int.emod_nonneg a (show (2 ^ 62 : Int) ≠ 0 by norm_num)
  have hm1 := Int.emod_lt_of_pos a (show (0 : Int) < 2 ^ 62 by norm_num)
  have hlow : a % 2 ^ 62 / 2 ^ s.toNat < 2 ^ 61 := by
    apply Int.ediv_lt_of_lt_mul (by positivity)
    have hp : (2 : Int) ^ 1 ≤ 2 ^ s.toNat := pow_le_pow_right₀ (by norm_num) (by omega)
    nlinarith
  have hr : InRange (a % 2 ^ 62 / 2 ^ s.toNat) :=
    ⟨by have := Int.ediv_nonneg hm0 (show (0 : Int) ≤ 2 ^ s.toNat by positivity); omega, hlow⟩
  rw [lshRight, ltI_tag hs (inRange_small 64)]
  by_cases h : s < 64
  · simp only [h, decide_true, if_true]
    rw [raw_tag hs, lshr, if_pos ⟨by omega, h⟩, bind_ok, force_eq]
    congr 2
    have hX : ((tag a).toNat : Int) = 4 * (a % 2 ^ 62) + 1 := by
      have h1 : ((tag a).toNat : Int) = (4 * a + 1) % 2 ^ 64 := by
        rw [tag, BitVec.toNat_ofInt]
        norm_num
        omega
      rw [h1]; omega
    have hlt : ((tag a) >>> s.toNat).toNat < 2 ^ 63 := by
      rw [BitVec.toNat_ushiftRight, Nat.shiftRight_eq_div_pow]
      apply Nat.div_lt_of_lt_mul
      have hp : 2 ^ 1 ≤ 2 ^ s.toNat := Nat.pow_le_pow_right (by norm_num) (by omega)
      have := (tag a).isLt
      nlinarith
    rw [BitVec.toInt_eq_toNat_cond, if_pos (by omega), BitVec.toNat_ushiftRight,
      Nat.shiftRight_eq_div_pow]
    push_cast
    rw [hX, Int.ediv_ediv_of_nonneg (by positivity), mul_comm (2 ^ s.toNat),
      ← Int.ediv_ediv_of_nonneg (by norm_num)]
    congr 1; omega
  · simp only [h, decide_false]
    have hp : (2 : Int) ^ 62 ≤ 2 ^ s.toNat := pow_le_pow_right₀ (by norm_num) (by omega)
    rw [if_neg (by simp), Int.ediv_eq_zero_of_lt hm0 (by omega)]

theorem lshLeft_tag {a s : Int} (ha : InRange a) (hs : InRange s) (h0 : 0 ≤ s) :
    lshLeft (tag a) (tag s) = .ok (tag ((a * 2 ^ s.toNat).bmod (2 ^ 62))) := by
  have hb : ∀ n : Int, InRange (n.bmod (2 ^ 62)) := by
    intro n
    have h1 := Int.le_bmod (x := n) (m := 2 ^ 62) (by norm_num)
    have h2 := Int.bmod_lt (x := n) (m := 2 ^ 62) (by norm_num)
    norm_num at h1 h2
    constructor <;> norm_num <;> omega
  rw [lshLeft, ltI_tag hs (inRange_small 64)]
  by_cases h : s < 64
  · simp only [h, decide_true, if_true]
    rw [raw_tag hs, shl, if_pos ⟨h0, h⟩, bind_ok]
    congr 1
    apply insert_eq_tag (hb _)
    rw [toInt_shl, toInt_strip_tag ha, mul_assoc]
    set n := a * 2 ^ s.toNat
    have e1 := Int.bmod_add_bdiv n (2 ^ 62)
    have e2 : 4 * n = 4 * n.bmod (2 ^ 62) + n.bdiv (2 ^ 62) * ((2 ^ 64 : Nat) : Int) := by
      push_cast at e1 ⊢
      linarith
    rw [e2, Int.add_mul_bmod_self_right]
    exact bmod_word ((inWord4_iff _).mpr (hb n))
  · simp only [h, decide_false]
    rw [if_neg (by simp)]
    have : (a * 2 ^ s.toNat).bmod (2 ^ 62) = 0 := by
      have : (2 : Int) ^ s.toNat = 2 ^ (s.toNat - 62) * ((2 ^ 62 : Nat) : Int) := by
        rw [Nat.cast_pow, Nat.cast_ofNat, ← pow_add]; congr 1; omega
      rw [this, ← mul_assoc]
      exact Int.mul_bmod_left _ _
    rw [this]

end Verif.Integer
