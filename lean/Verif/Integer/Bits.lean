import Verif.Integer.Lemmas
/-
Helper lemmas about the bits of words and of integers.
-/
namespace Verif.Integer

theorem bit_sub_mul {n c : Int} {i k : Nat} (h : i < k) : bit (n - c * 2 ^ k) i = bit n i := by
  unfold bit
  have e : n - c * 2 ^ k = n + (-(c * 2 ^ (k - i - 1)) * 2) * 2 ^ i := by
    have : (2 : Int) ^ k = 2 ^ (k - i - 1) * 2 * 2 ^ i := by
      rw [← pow_succ, ← pow_add]; congr 1; omega
    rw [this]; ring
  rw [e, Int.add_mul_ediv_right _ _ (by positivity)]
  apply decide_eq_decide.mpr
  omega

theorem bit_natCast (n i : Nat) : bit (n : Int) i = n.testBit i := by
  rw [Nat.testBit_eq_decide_div_mod_eq, bit]
  apply decide_eq_decide.mpr
  norm_cast

theorem getLsbD_bit (x : Word) {i : Nat} (h : i < 64) : x.getLsbD i = bit x.toInt i := by
  have e : x.toInt = (x.toNat : Int) - (if 2 * x.toNat < 2 ^ 64 then 0 else 1) * 2 ^ 64 := by
    rw [BitVec.toInt_eq_toNat_cond]
    split <;> simp
  rw [e, bit_sub_mul h, bit_natCast]
  rfl

theorem bit_tag (n : Int) (i : Nat) : bit (4 * n + 1) (i + 2) = bit n i := by
  unfold bit
  have : (4 * n + 1) / 2 ^ (i + 2) = n / 2 ^ i := by
    rw [pow_add, mul_comm (2 ^ i), ← Int.ediv_ediv_of_nonneg (by norm_num)]
    congr 1; omega
  rw [this]

theorem bit_high {n : Int} (h : InRange n) {i : Nat} (hi : 61 ≤ i) : bit n i = decide (n < 0) := by
  obtain ⟨h1, h2⟩ := h
  have hp : (2 : Int) ^ 61 ≤ 2 ^ i := pow_le_pow_right₀ (by norm_num) hi
  unfold bit
  apply decide_eq_decide.mpr
  by_cases hn : n < 0
  · have : n / 2 ^ i = -1 := by
      apply le_antisymm
      · exact Int.le_of_lt_add_one (by
          have := Int.ediv_neg_of_neg_of_pos hn (show (0 : Int) < 2 ^ i by positivity)
          omega)
      · exact (Int.le_ediv_iff_mul_le (by positivity)).mpr (by omega)
    rw [this]; simp [hn]
  · have : n / 2 ^ i = 0 := Int.ediv_eq_zero_of_lt (by omega) (by omega)
    rw [this]; simp [hn]

theorem getLsbD_tag {n : Int} (h : InRange n) {i : Nat} (hi : i < 62) :
    (tag n).getLsbD (i + 2) = bit n i := by
  rw [getLsbD_bit _ (by omega), toInt_tag h, bit_tag]

theorem getLsbD_tag0 {n : Int} (h : InRange n) : (tag n).getLsbD 0 = true := by
  rw [getLsbD_bit _ (by omega), toInt_tag h]
  unfold bit; simp; omega

theorem getLsbD_tag1 {n : Int} (h : InRange n) : (tag n).getLsbD 1 = false := by
  rw [getLsbD_bit _ (by omega), toInt_tag h]
  unfold bit; simp; omega

theorem inRange_div4 (w : Word) : InRange (w.toInt / 4) := by
  obtain ⟨h1, h2⟩ := inWord_toInt w
  constructor <;> omega

/-- A word with the right tag bits is a tagged integer. -/
theorem exists_tag {w : Word} (h0 : w.getLsbD 0 = true) (h1 : w.getLsbD 1 = false) :
    ∃ r, InRange r ∧ w = tag r ∧ ∀ i, i < 62 → bit r i = w.getLsbD (i + 2) := by
  rw [getLsbD_bit _ (by omega)] at h0 h1
  unfold bit at h0 h1
  simp at h0 h1
  have e : w.toInt = 4 * (w.toInt / 4) + 1 := by omega
  refine ⟨w.toInt / 4, inRange_div4 w, eq_tag e, fun i hi => ?_⟩
  rw [getLsbD_bit _ (by omega)]
  conv_rhs => rw [e]
  rw [bit_tag]

theorem mask4 : ∀ i : Fin 64, (BitVec.ofInt 64 (-4)).getLsbD i = decide (2 ≤ i.val) := by decide

theorem and_mask (w : Word) : w &&& BitVec.ofInt 64 (-4) = (w.sshiftRight 2) <<< 2 := by
  apply BitVec.eq_of_getLsbD_eq
  intro i hi
  rw [BitVec.getLsbD_and, mask4 ⟨i, hi⟩, BitVec.getLsbD_shiftLeft, BitVec.getLsbD_sshiftRight]
  by_cases h : 2 ≤ i
  · have h3 : 2 + (i - 2) = i := by omega
    have h4 : ¬ (64 ≤ i - 2) := by omega
    have h5 : ¬ i < 2 := by omega
    simp [h, h3, h4, h5, hi]
  · simp [h]

theorem force_eq (w : Word) : force w = tag (w.toInt / 4) := by
  rw [force, and_mask]
  apply insert_eq_tag (inRange_div4 w)
  rw [toInt_shl, BitVec.toInt_sshiftRight, Int.shiftRight_eq_div_pow]
  have e : w.toInt / ↑(2 ^ 2 : Nat) * 2 ^ 2 = 4 * (w.toInt / 4) := by norm_num; ring
  rw [e]
  exact bmod_word ((inWord4_iff _).mpr (inRange_div4 w))

theorem bit_ext_range {r : Int} (hr : InRange r) {f : Nat → Bool}
    (hf : ∀ i, 61 ≤ i → f i = f 61) (h : ∀ i, i < 62 → bit r i = f i) : ∀ i, bit r i = f i := by
  intro i
  by_cases hi : i < 62
  · exact h i hi
  · rw [bit_high hr (by omega), hf i (by omega), ← h 61 (by omega), bit_high hr (by omega)]

theorem inRange_of_lt {a : Int} (h0 : -64 ≤ a) (h1 : a ≤ 64) : InRange a := by
  constructor <;> omega

/-- An integer is determined by its bits. -/
theorem eq_of_bits {a b : Int} (ha : InRange a) (hb : InRange b) (h : ∀ i, bit a i = bit b i) :
    a = b := by
  apply (tag_inj ha hb).mp
  apply BitVec.eq_of_getLsbD_eq
  intro i hi
  match i, hi with
  | 0, _ => rw [getLsbD_tag0 ha, getLsbD_tag0 hb]
  | 1, _ => rw [getLsbD_tag1 ha, getLsbD_tag1 hb]
  | i + 2, hi => rw [getLsbD_tag ha (by omega), getLsbD_tag hb (by omega), h]

/-! ### Logical operations -/

theorem logior_tag {a b : Int} (ha : InRange a) (hb : InRange b) :
    ∃ r, InRange r ∧ binaryLogior (tag a) (tag b) = tag r ∧
      ∀ i, bit r i = (bit a i || bit b i) := by
  obtain ⟨r, hr, e, hbits⟩ := exists_tag (w := tag a ||| tag b)
    (by rw [BitVec.getLsbD_or, getLsbD_tag0 ha, Bool.true_or])
    (by rw [BitVec.getLsbD_or, getLsbD_tag1 ha, getLsbD_tag1 hb, Bool.or_self])
  refine ⟨r, hr, e, bit_ext_range hr ?_ ?_⟩
  · intro i hi
    simp only [bit_high ha hi, bit_high hb hi, bit_high ha (le_refl 61), bit_high hb (le_refl 61)]
  · intro i hi
    rw [hbits i hi, BitVec.getLsbD_or, getLsbD_tag ha hi, getLsbD_tag hb hi]

theorem logand_tag {a b : Int} (ha : InRange a) (hb : InRange b) :
    ∃ r, InRange r ∧ binaryLogand (tag a) (tag b) = tag r ∧
      ∀ i, bit r i = (bit a i && bit b i) := by
  obtain ⟨r, hr, e, hbits⟩ := exists_tag (w := tag a &&& tag b)
    (by rw [BitVec.getLsbD_and, getLsbD_tag0 ha, getLsbD_tag0 hb, Bool.and_self])
    (by rw [BitVec.getLsbD_and, getLsbD_tag1 ha, Bool.false_and])
  refine ⟨r, hr, e, bit_ext_range hr ?_ ?_⟩
  · intro i hi
    simp only [bit_high ha hi, bit_high hb hi, bit_high ha (le_refl 61), bit_high hb (le_refl 61)]
  · intro i hi
    rw [hbits i hi, BitVec.getLsbD_and, getLsbD_tag ha hi, getLsbD_tag hb hi]

theorem bit_force {w : Word} {i : Nat} (hi : i < 62) : bit (w.toInt / 4) i = w.getLsbD (i + 2) := by
  rw [getLsbD_bit _ (by omega)]
  unfold bit
  have : w.toInt / 2 ^ (i + 2) = w.toInt / 4 / 2 ^ i := by
    rw [pow_add, mul_comm (2 ^ i), ← Int.ediv_ediv_of_nonneg (by norm_num)]; norm_num
  rw [this]

theorem logxor_tag {a b : Int} (ha : InRange a) (hb : InRange b) :
    ∃ r, InRange r ∧ binaryLogxor (tag a) (tag b) = tag r ∧
      ∀ i, bit r i = (bit a i ^^ bit b i) := by
  refine ⟨_, inRange_div4 _, force_eq _, bit_ext_range (inRange_div4 _) ?_ ?_⟩
  · intro i hi
    simp only [bit_high ha hi, bit_high hb hi, bit_high ha (le_refl 61), bit_high hb (le_refl 61)]
  · intro i hi
    rw [bit_force hi, BitVec.getLsbD_xor, getLsbD_tag ha hi, getLsbD_tag hb hi]

theorem lognot_tag {a : Int} (ha : InRange a) : lognot (tag a) = tag (-a - 1) := by
  rw [lognot, force_eq]
  congr 1
  have : tag a ^^^ -1 = ~~~ (tag a) := by
    rw [show (-1 : Word) = BitVec.allOnes 64 by decide, BitVec.xor_allOnes]
  rw [this, BitVec.toInt_not]
  have e : ((2 ^ 64 - 1 - ((tag a).toNat : Int)).bmod (2 ^ 64)) = -(tag a).toInt - 1 := by
    have h1 : (2 ^ 64 - 1 - ((tag a).toNat : Int)).bmod (2 ^ 64) =
        (-(tag a).toInt - 1).bmod (2 ^ 64) := by
      apply Int.bmod_eq_bmod_iff_bmod_sub_eq_zero.mpr
      rw [BitVec.toInt_eq_toNat_cond]
      split
      · have : (2 ^ 64 - 1 - ((tag a).toNat : Int) - (-((tag a).toNat : Int) - 1)) = 2 ^ 64 := by ring
        rw [this]; rfl
      · have : (2 ^ 64 - 1 - ((tag a).toNat : Int) -
          (-(((tag a).toNat : Int) - ((2 ^ 64 : Nat) : Int)) - 1)) = 0 := by push_cast; ring
        rw [this]; rfl
    rw [h1]
    apply bmod_word
    rw [toInt_tag ha]
    obtain ⟨h1, h2⟩ := ha
    constructor <;> omega
  rw [e, toInt_tag ha]
  omega

theorem and_shl_one (w : Word) (k : Nat) (hk : k < 64) :
    ((w &&& (1 : Word) <<< k) != 0) = w.getLsbD k := by
  have h1 : ∀ i, i < 64 → (w &&& (1 : Word) <<< k).getLsbD i = (w.getLsbD i && decide (i = k)) := by
    intro i hi
    rw [BitVec.getLsbD_and, BitVec.getLsbD_shiftLeft]
    congr 1
    rcases lt_trichotomy i k with h | h | h
    · simp [h]; omega
    · subst h; simp [hi]
    · have : ¬ i = k := by omega
      have h2 : ¬ i < k := by omega
      simp [this, h2]; omega
  by_cases hb : w.getLsbD k = true
  · rw [hb, bne_iff_ne]
    intro e
    have := h1 k hk
    rw [e, hb] at this
    simp at this
  · have hb : w.getLsbD k = false := by simpa using hb
    rw [hb]
    have : w &&& (1 : Word) <<< k = 0 := by
      apply BitVec.eq_of_getLsbD_eq
      intro i hi
      rw [h1 i hi]
      by_cases h : i = k
      · subst h; simp [hb]
      · simp [h]
    rw [this]; rfl

end Verif.Integer
