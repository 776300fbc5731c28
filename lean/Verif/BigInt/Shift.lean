/-
Shifts and logical functions in the model of the `big-integers` library.
-/
import Verif.BigInt.Mul
import Verif.Integer.Bits
import Verif.Integer.Shift

namespace Verif.BigInt
open Verif.Integer Verif.MachineWord

theorem pow_split {s t : Nat} (h : t ≤ s) : (2 : Int) ^ s = 2 ^ t * 2 ^ (s - t) := by
  rw [← pow_add]; congr 1; omega

theorem pow_split_nat {s t : Nat} (h : t ≤ s) : 2 ^ s = 2 ^ t * 2 ^ (s - t) := by
  rw [← pow_add]; congr 1; omega

theorem sval_div (l h : Word) : sval l h / 2 ^ 64 = h.toInt := by
  have := l.isLt
  unfold sval; omega

/-- The sum of disjoint words. -/
theorem or_add (x y : Word) {k : Nat} (hx : x.toNat < 2 ^ k) (hy : y.toNat % 2 ^ k = 0) : (x ||| y).toNat = x.toNat + y.toNat := by
  rw [BitVec.toNat_or]
  obtain ⟨m, hm⟩ : ∃ m, y.toNat = 2 ^ k * m := ⟨y.toNat / 2 ^ k, by have := Nat.div_add_mod y.toNat (2 ^ k); omega⟩
  rw [hm, Nat.or_comm, ← Nat.two_pow_add_eq_or_of_lt hx, Nat.add_comm]

theorem shl128_ok (f : Double) {s : Nat} (h : s < 64) : LLVM.shl128 f (count s) = .ok (f <<< s) := by
  have e : ((count s).signExtend 128).toNat = s := by
    have h1 : (count s).toNat = s := by unfold count; rw [BitVec.toNat_ofNat]; omega
    have h2 : (count s).msb = false := by
      rw [BitVec.msb_eq_false_iff_two_mul_lt, h1]; omega
    rw [BitVec.toNat_signExtend, h2]
    simp [BitVec.toNat_setWidth, h1]
    omega
  unfold LLVM.shl128
  rw [e, if_pos (by omega)]

theorem lshr128_ok (f : Double) {s : Nat} (h : s < 64) : LLVM.lshr128 f (count s) = .ok (f >>> s) := by
  have e : ((count s).signExtend 128).toNat = s := by
    have h1 : (count s).toNat = s := by unfold count; rw [BitVec.toNat_ofNat]; omega
    have h2 : (count s).msb = false := by
      rw [BitVec.msb_eq_false_iff_two_mul_lt, h1]; omega
    rw [BitVec.toNat_signExtend, h2]
    simp [BitVec.toNat_setWidth, h1]
    omega
  unfold LLVM.lshr128
  rw [e, if_pos (by omega)]

theorem sval_mod (l h : Word) : ∃ k : Int, sval l h = uval l h + 2 ^ 128 * k := by
  unfold sval uval
  obtain ⟨k, hk⟩ := toNat_mod h
  refine ⟨-k, ?_⟩
  push_cast
  rw [hk]; ring

theorem sval_split_wrap (f : Double) : sval (LLVM.split f).1 (LLVM.split f).2 = wrap f.toNat := by
  obtain ⟨k, hk⟩ := sval_mod (LLVM.split f).1 (LLVM.split f).2
  rw [uval_split] at hk
  exact eq_wrap (sval_in128 _ _) hk

theorem wrap_congr {a b : Int} (k : Int) (h : a = b + 2 ^ 128 * k) : wrap a = wrap b := by
  subst h; unfold wrap; omega

theorem doubleShiftLeft_eq (l h : Word) {s : Nat} (hs : s < 64) :
    ∃ r, LLVM.doubleShiftLeft l h (count s) = .ok r ∧ sval r.1 r.2 = wrap (sval l h * 2 ^ s) ∧ uval r.1 r.2 = uval l h * 2 ^ s % 2 ^ 128 := by
  refine ⟨LLVM.split (LLVM.merge l h <<< s), ?_, ?_, ?_⟩
  · unfold LLVM.doubleShiftLeft
    rw [shl128_ok _ hs]; rfl
  · rw [sval_split_wrap, BitVec.toNat_shiftLeft, toNat_merge, Nat.shiftLeft_eq]
    obtain ⟨k, hk⟩ := sval_mod l h
    rw [hk]
    have e : ((uval l h * 2 ^ s % 2 ^ 128 : Nat) : Int) = (uval l h : Int) * 2 ^ s - 2 ^ 128 * ((uval l h * 2 ^ s / 2 ^ 128 : Nat) : Int) := by
      have := Nat.div_add_mod (uval l h * 2 ^ s) (2 ^ 128)
      have h2 : (2 ^ 128 : Int) * ((uval l h * 2 ^ s / 2 ^ 128 : Nat) : Int) + ((uval l h * 2 ^ s % 2 ^ 128 : Nat) : Int) = (uval l h : Int) * 2 ^ s := by exact_mod_cast this
      omega
    rw [e]
    exact wrap_congr (-((uval l h * 2 ^ s / 2 ^ 128 : Nat) : Int) - k * 2 ^ s) (by ring)
  · rw [uval_split, BitVec.toNat_shiftLeft, toNat_merge, Nat.shiftLeft_eq]

theorem doubleShiftRight_eq (l h : Word) {s : Nat} (hs : s < 64) :
    ∃ r, LLVM.doubleShiftRight l h (count s) = .ok r ∧ sval r.1 r.2 = wrap ((uval l h / 2 ^ s : Nat) : Int) := by
  refine ⟨LLVM.split (LLVM.merge l h >>> s), ?_, ?_⟩
  · unfold LLVM.doubleShiftRight
    rw [lshr128_ok _ hs]; rfl
  · rw [sval_split_wrap, BitVec.toNat_ushiftRight, toNat_merge, Nat.shiftRight_eq_div_pow]

theorem uval_eq (l h : Word) : ((uval l h : Nat) : Int) = sval l h % 2 ^ 128 := by
  obtain ⟨k, hk⟩ := sval_mod l h
  have h1 := l.isLt
  have h2 := h.isLt
  rw [hk]
  have : uval l h < 2 ^ 128 := by unfold uval; omega
  omega

/-! ### `ash` -/

/-- A shift fits if that of the high word does. -/
theorem in128_shift (l h : Word) {s : Nat} (hs : s < 64) : In128 (sval l h * 2 ^ s) ↔ InWord (h.toInt * 2 ^ s) := by
  have hl := l.isLt
  have hp : (0 : Int) < 2 ^ s := by positivity
  have e1 : (2 : Int) ^ 63 = 2 ^ (63 - s) * 2 ^ s := by rw [← pow_add]; congr 1; omega
  have e2 : (2 : Int) ^ 127 = 2 ^ 64 * (2 ^ (63 - s) * 2 ^ s) := by rw [← e1]; norm_num
  generalize hP : (2 : Int) ^ s = P at *
  generalize (2 : Int) ^ (63 - s) = Q at *
  unfold In128 InWord
  rw [e2, e1]
  have key1 : ∀ n : Int, -(2 ^ 64 * (Q * P)) ≤ n * P ↔ -(2 ^ 64 * Q) ≤ n := fun n => by
    rw [show -(2 ^ 64 * (Q * P)) = -(2 ^ 64 * Q) * P by ring]
    exact ⟨fun h => le_of_mul_le_mul_right h hp, fun h => mul_le_mul_of_nonneg_right h hp.le⟩
  have key2 : ∀ n : Int, n * P < 2 ^ 64 * (Q * P) ↔ n < 2 ^ 64 * Q := fun n => by
    rw [show 2 ^ 64 * (Q * P) = (2 ^ 64 * Q) * P by ring]
    exact ⟨fun h => lt_of_mul_lt_mul_right h hp.le, fun h => mul_lt_mul_of_pos_right h hp⟩
  have key3 : ∀ n : Int, -(Q * P) ≤ n * P ↔ -Q ≤ n := fun n => by
    rw [show -(Q * P) = (-Q) * P by ring]
    exact ⟨fun h => le_of_mul_le_mul_right h hp, fun h => mul_le_mul_of_nonneg_right h hp.le⟩
  have key4 : ∀ n : Int, n * P < Q * P ↔ n < Q := fun n =>
    ⟨fun h => lt_of_mul_lt_mul_right h hp.le, fun h => mul_lt_mul_of_pos_right h hp⟩
  rw [key1, key2, key3, key4]
  unfold sval
  omega

theorem toInt_high (f : Double) : (LLVM.split f).2.toInt = f.toInt / 2 ^ 64 := by
  have h := sval_split f
  have := (LLVM.split f).1.isLt
  unfold sval at h
  omega

theorem ashLeft_low {l h : Word} {s : Nat} (hs : s < 64) :
    ashLeft l h s = if In128 (sval l h * 2 ^ s) then .ok (big (sval l h * 2 ^ s)) else .overflow := by
  obtain ⟨r, hr, _, hu⟩ := doubleShiftLeft_eq l 0 hs
  unfold ashLeft
  rw [if_pos hs, hr]
  show ((shlO h s).bind fun hh => interpret r.1 (r.2 ||| hh)) = _
  rw [shlO_eq h (by omega) (by omega), show ((s : Int)).toNat = s from rfl]
  by_cases hw : InWord (h.toInt * 2 ^ s)
  · rw [if_pos hw, if_pos ((in128_shift l h hs).2 hw)]
    show interpret r.1 (r.2 ||| _) = _
    apply interpret_of
    have hl := l.isLt
    have hp : 0 < 2 ^ s := by positivity
    have hpl : 2 ^ s < 2 ^ 64 := Nat.pow_lt_pow_right (by omega) hs
    have hr1 := r.1.isLt
    have hu0 : uval l 0 = l.toNat := by unfold uval; simp
    rw [hu0] at hu
    have hlt : l.toNat * 2 ^ s < 2 ^ 128 := by
      calc l.toNat * 2 ^ s < 2 ^ 64 * 2 ^ s := Nat.mul_lt_mul_of_pos_right hl hp
        _ ≤ 2 ^ 64 * 2 ^ 64 := Nat.mul_le_mul_left _ (by omega)
        _ = 2 ^ 128 := by norm_num
    rw [Nat.mod_eq_of_lt hlt] at hu
    have hr2 : r.2.toNat < 2 ^ s := by
      have : l.toNat * 2 ^ s < 2 ^ 64 * 2 ^ s := Nat.mul_lt_mul_of_pos_right hl hp
      unfold uval at hu
      by_contra hc
      have : 2 ^ 64 * 2 ^ s ≤ 2 ^ 64 * r.2.toNat := Nat.mul_le_mul_left _ (by omega)
      omega
    have hmod : (h <<< s).toNat % 2 ^ s = 0 := by
      rw [BitVec.toNat_shiftLeft, Nat.shiftLeft_eq, Nat.mod_mod_of_dvd _ (Nat.pow_dvd_pow 2 hs.le)]
      exact Nat.mul_mod_left _ _
    have hor := or_add r.2 (h <<< s) hr2 hmod
    have hsh : (h <<< s).toInt = h.toInt * 2 ^ s := by rw [toInt_shl, bmod_word hw]
    -- the high word as a signed number
    obtain ⟨k1, hk1⟩ := toNat_mod (r.2 ||| h <<< s)
    obtain ⟨k2, hk2⟩ := toNat_mod (h <<< s)
    have hval : sval r.1 (r.2 ||| h <<< s) = sval l h * 2 ^ s + 2 ^ 128 * (k2 - k1) := by
      unfold uval at hu
      have hu' : (r.1.toNat : Int) + 2 ^ 64 * r.2.toNat = l.toNat * 2 ^ s := by exact_mod_cast hu
      have hor' : ((r.2 ||| h <<< s).toNat : Int) = r.2.toNat + (h <<< s).toNat := by exact_mod_cast hor
      unfold sval
      rw [hk1, hk2, hsh] at hor'
      rw [show (r.2 ||| h <<< s).toInt = r.2.toNat + (h.toInt * 2 ^ s + 2 ^ 64 * k2) - 2 ^ 64 * k1 by omega]
      rw [add_mul, ← hu']
      ring
    rw [show BitVec.ofInt 64 (h.toInt * 2 ^ s) = h <<< s from (eq_ofInt hsh).symm, eq_wrap (sval_in128 _ _) hval, wrap_of ((in128_shift l h hs).2 hw)]
  · rw [if_neg hw, if_neg (fun h' => hw ((in128_shift l h hs).1 h'))]; rfl

theorem sign_iff (l h : Word) : (h ≠ signWord h ∨ h ≠ signWord l) ↔ ¬ InWord (sval l h) := by
  have e1 : h = signWord h ↔ h.toInt = if h.toInt < 0 then -1 else 0 := by
    rw [← signWord_toInt]; exact BitVec.toInt_inj.symm
  have e2 : h = signWord l ↔ h.toInt = if l.toInt < 0 then -1 else 0 := by
    rw [← signWord_toInt]; exact BitVec.toInt_inj.symm
  rw [Ne, Ne, e1, e2]
  have ht := toNat_of_toInt l
  obtain ⟨a, b⟩ := inWord_toInt l
  unfold sval InWord
  rw [ht]
  split_ifs <;> omega

theorem toInt_of_word {l h : Word} (hw : InWord (sval l h)) : l.toInt = sval l h := sval_inj hw rfl

theorem sval_zero_high (h : Word) : sval 0 h = h.toInt * 2 ^ 64 := by
  unfold sval; rw [show (0 : Word).toNat = 0 from rfl]; push_cast; ring

theorem ashLeft_high {l h : Word} {s : Nat} (hs : 64 ≤ s) (hs' : s < 128) :
    ashLeft l h s = if In128 (sval l h * 2 ^ s) then .ok (big (sval l h * 2 ^ s)) else .overflow := by
  have hpow : (2 : Int) ^ s = 2 ^ (s - 64) * 2 ^ 64 := by rw [← pow_add]; congr 1; omega
  have hp1 : (1 : Int) ≤ 2 ^ (s - 64) := by exact_mod_cast Nat.one_le_two_pow
  unfold ashLeft
  rw [if_neg (by omega)]
  by_cases hw : InWord (sval l h)
  · have hi : In128 (sval l h * 2 ^ s) ↔ InWord (sval l h * 2 ^ (s - 64)) := by
      rw [hpow, ← mul_assoc]
      generalize sval l h * 2 ^ (s - 64) = n
      unfold In128 InWord
      omega
    rw [if_neg (fun h' => (sign_iff l h).1 h' hw), if_neg (by omega)]
    show ((shlO l ((s - 64 : Nat) : Int)).bind fun h => interpret 0 h) = _
    rw [shlO_eq l (by omega) (by omega), show (((s - 64 : Nat) : Int)).toNat = s - 64 from rfl, toInt_of_word hw]
    by_cases hc : InWord (sval l h * 2 ^ (s - 64))
    · rw [if_pos hc, if_pos (hi.2 hc)]
      apply interpret_of
      rw [sval_zero_high, toInt_ofInt hc, hpow, mul_assoc]
    · rw [if_neg hc, if_neg (fun h' => hc (hi.1 h'))]; rfl
  · rw [if_pos ((sign_iff l h).2 hw), if_neg]
    rintro ⟨h1, h2⟩
    apply hw
    rw [hpow, ← mul_assoc] at h1 h2
    unfold InWord
    constructor
    · by_contra hc
      push Not at hc
      have : sval l h * 2 ^ (s - 64) ≤ sval l h * 1 := mul_le_mul_of_nonpos_left hp1 (by omega)
      omega
    · by_contra hc
      push Not at hc
      have : sval l h * 1 ≤ sval l h * 2 ^ (s - 64) := mul_le_mul_of_nonneg_left hp1 (by omega)
      omega

theorem ashLeft_over {l h : Word} {s : Nat} (hs : 128 ≤ s) :
    ashLeft l h 128 = if In128 (sval l h * 2 ^ s) then .ok (big (sval l h * 2 ^ s)) else .overflow := by
  have hi : In128 (sval l h * 2 ^ s) ↔ sval l h = 0 := by
    have hp1 : (2 : Int) ^ 128 ≤ 2 ^ s := by exact_mod_cast Nat.pow_le_pow_right (by omega) hs
    constructor
    · rintro ⟨h1, h2⟩
      by_contra hc
      rcases lt_or_gt_of_ne hc with h3 | h3
      · have : sval l h * 2 ^ s ≤ -1 * 2 ^ s := mul_le_mul_of_nonneg_right (by omega) (by positivity)
        omega
      · have : 1 * 2 ^ s ≤ sval l h * 2 ^ s := mul_le_mul_of_nonneg_right (by omega) (by positivity)
        omega
    · intro h; rw [h, zero_mul]; constructor <;> norm_num
  unfold ashLeft
  rw [if_neg (by omega)]
  by_cases hw : InWord (sval l h)
  · rw [if_neg (fun h' => (sign_iff l h).1 h' hw), if_pos (by omega)]
    show ((shlO l 32).bind fun x => (shlO x 32).bind fun h => interpret 0 h) = _
    rw [shlO_eq l (by omega) (by omega), show ((32 : Int)).toNat = 32 from rfl, toInt_of_word hw]
    by_cases hz : sval l h = 0
    · have h0 : InWord (0 : Int) := by constructor <;> norm_num
      rw [if_pos (hi.2 hz), hz, zero_mul, zero_mul, if_pos h0]
      show ((shlO (BitVec.ofInt 64 0) 32).bind fun h => interpret 0 h) = _
      rw [shlO_eq _ (by omega) (by omega), toInt_ofInt h0, zero_mul, if_pos h0]
      apply interpret_of
      rw [sval_zero_high, toInt_ofInt h0, zero_mul]
    · rw [if_neg (fun h => hz (hi.1 h))]
      by_cases hc : InWord (sval l h * 2 ^ 32)
      · rw [if_pos hc]
        show ((shlO (BitVec.ofInt 64 _) 32).bind fun h => interpret 0 h) = _
        rw [shlO_eq _ (by omega) (by omega), show ((32 : Int)).toNat = 32 from rfl, toInt_ofInt hc, if_neg]
        · rfl
        · rintro ⟨h1, h2⟩
          omega
      · rw [if_neg hc]; rfl
  · rw [if_pos ((sign_iff l h).2 hw), if_neg]
    intro h'
    apply hw
    rw [hi.1 h']; constructor <;> norm_num

theorem unsignedShiftLeft_eq (x : Word) {s : Nat} (hs : s < 64) : LLVM.unsignedShiftLeft x (count s) = .ok (x <<< s) := by
  obtain ⟨r, hr, _, hu⟩ := doubleShiftLeft_eq 0 x hs
  unfold LLVM.unsignedShiftLeft
  rw [hr]
  show Out.ok r.2 = _
  congr 1
  apply BitVec.eq_of_toNat_eq
  rw [BitVec.toNat_shiftLeft, Nat.shiftLeft_eq]
  have h1 := r.1.isLt
  have h2 := r.2.isLt
  unfold uval at hu
  rw [show (0 : Word).toNat = 0 from rfl, Nat.zero_add] at hu
  rw [show 2 ^ 64 * x.toNat * 2 ^ s = 2 ^ 64 * (x.toNat * 2 ^ s) by ring] at hu
  generalize x.toNat * 2 ^ s = n at *
  omega

/-- The low word of the shift. -/
theorem ashRight_low_word (l h : Word) {s : Nat} (h0 : 0 < s) (hs : s < 64) :
    (l >>> s ||| (h.rotateRight s &&& ((-1 : Word) <<< (64 - s)))).toNat = l.toNat / 2 ^ s + (h.toNat % 2 ^ s) * 2 ^ (64 - s) := by
  have hl := l.isLt
  have e : h.rotateRight s &&& ((-1 : Word) <<< (64 - s)) = h <<< (64 - s) := by
    apply BitVec.eq_of_getLsbD_eq
    intro i hi
    rw [BitVec.getLsbD_and, BitVec.getLsbD_shiftLeft, BitVec.getLsbD_shiftLeft, BitVec.getLsbD_rotateRight_of_lt hs]
    by_cases hlt : i < 64 - s
    · simp [hlt]
    · have e3 : (-1 : Word).getLsbD (i - (64 - s)) = true := by
        rw [show (-1 : Word) = BitVec.allOnes 64 from rfl, BitVec.getLsbD_allOnes]
        simp; omega
      rw [e3]; simp [hlt, hi]
  rw [e]
  have hpow : 2 ^ 64 = 2 ^ (64 - s) * 2 ^ s := by rw [← pow_add]; congr 1; omega
  have hp : 0 < 2 ^ s := by positivity
  have hlt : (l >>> s).toNat < 2 ^ (64 - s) := by
    rw [BitVec.toNat_ushiftRight, Nat.shiftRight_eq_div_pow, Nat.div_lt_iff_lt_mul hp, ← hpow]
    exact hl
  have hmod : (h <<< (64 - s)).toNat % 2 ^ (64 - s) = 0 := by
    rw [BitVec.toNat_shiftLeft, Nat.shiftLeft_eq, Nat.mod_mod_of_dvd _ (Nat.pow_dvd_pow 2 (by omega))]
    exact Nat.mul_mod_left _ _
  rw [or_add _ _ hlt hmod, BitVec.toNat_ushiftRight, Nat.shiftRight_eq_div_pow, BitVec.toNat_shiftLeft, Nat.shiftLeft_eq]
  congr 1
  rw [hpow, Nat.mul_comm (2 ^ (64 - s)) (2 ^ s), Nat.mul_mod_mul_right]

theorem ashRight_low {n : Bool} {l h : Word} {s : Nat} (h0 : 0 < s) (hs : s < 64) : ashRight n l h s = .ok (big (sval l h / 2 ^ s)) := by
  unfold ashRight
  rw [if_pos hs]
  have hc : (count s).toNat = s := by unfold count; rw [BitVec.toNat_ofNat]; omega
  have e1 : ashr h s = .ok (h.sshiftRight s) := by unfold ashr; rw [if_pos (by omega)]; rfl
  have e2 : LLVM.rotateRight h (count s) = .ok (h.rotateRight s) := by
    have := (rotate_exact_partial h (count s) (by omega) (by omega)).2.2.2
    rw [this, hc]
  have e3 : lshr l s = .ok (l >>> s) := by unfold lshr; rw [if_pos (by omega)]; rfl
  rw [e1, e2, e3, unsignedShiftLeft_eq (-1) (by omega)]
  show interpret _ _ = _
  apply interpret_of
  unfold sval
  rw [ashRight_low_word l h h0 hs, BitVec.toInt_sshiftRight, Int.shiftRight_eq_div_pow]
  have hp : (0 : Int) < 2 ^ s := by positivity
  have hpow : (2 : Int) ^ 64 = 2 ^ (64 - s) * 2 ^ s := by rw [← pow_add]; congr 1; omega
  obtain ⟨k, hk⟩ := toNat_mod h
  have hm : ((h.toNat % 2 ^ s : Nat) : Int) = h.toInt % 2 ^ s := by
    push_cast
    rw [hk, hpow, show h.toInt + 2 ^ (64 - s) * 2 ^ s * k = h.toInt + 2 ^ s * (2 ^ (64 - s) * k) by ring, Int.add_mul_emod_self_left]
  have hd : (l.toNat + 2 ^ 64 * h.toInt) / 2 ^ s = (l.toNat : Int) / 2 ^ s + 2 ^ (64 - s) * h.toInt := by
    rw [hpow, show (l.toNat : Int) + 2 ^ (64 - s) * 2 ^ s * h.toInt = l.toNat + 2 ^ s * (2 ^ (64 - s) * h.toInt) by ring, Int.add_mul_ediv_left _ _ (by omega)]
  rw [hd]
  push_cast at hm ⊢
  rw [hm]
  have := Int.emod_add_mul_ediv h.toInt (2 ^ s)
  rw [show (18446744073709551616 : Int) = 2 ^ (64 - s) * 2 ^ s by rw [← hpow]; norm_num]
  generalize (2 : Int) ^ (64 - s) = Q at *
  generalize h.toInt % 2 ^ s = r at *
  generalize h.toInt / 2 ^ s = q at *
  rw [← this]
  ring

theorem ashRight_high {n : Bool} {l h : Word} {s : Nat} (h0 : 64 ≤ s) (hs : s < 128) : ashRight n l h s = .ok (big (sval l h / 2 ^ s)) := by
  unfold ashRight
  rw [if_neg (by omega), if_pos (by omega)]
  have e1 : ashr h ((s - 64 : Nat) : Int) = .ok (h.sshiftRight (s - 64)) := by unfold ashr; rw [if_pos (by omega)]; rfl
  rw [e1]
  show interpret _ _ = _
  apply interpret_of
  have hpow := pow_split (s := s) (t := 64) (by omega)
  have hl := l.isLt
  have hs2 : signWord h = signWord (h.sshiftRight (s - 64)) := by
    apply BitVec.eq_of_toInt_eq
    rw [signWord_toInt, signWord_toInt, BitVec.toInt_sshiftRight, Int.shiftRight_eq_div_pow]
    have : h.toInt / 2 ^ (s - 64) < 0 ↔ h.toInt < 0 := by
      rw [Int.ediv_lt_iff_lt_mul (by positivity), zero_mul]
    push_cast
    simp only [this]
  rw [hs2, sval_sign, BitVec.toInt_sshiftRight, Int.shiftRight_eq_div_pow, hpow, ← Int.ediv_ediv_of_nonneg (by norm_num), sval_div]
  push_cast
  rfl

theorem ashRight_over {l h : Word} {s : Nat} (hs : 128 ≤ s) : ashRight (decide (sval l h < 0)) l h 128 = .ok (big (sval l h / 2 ^ s)) := by
  unfold ashRight
  rw [if_neg (by omega), if_neg (by omega)]
  obtain ⟨h1, h2⟩ := sval_in128 l h
  have hp1 : (2 : Int) ^ 128 ≤ 2 ^ s := by exact_mod_cast Nat.pow_le_pow_right (by omega) hs
  by_cases hn : sval l h < 0
  · have : sval l h / 2 ^ s = -1 := by
      rw [Int.ediv_eq_iff_of_pos (by positivity)]; omega
    rw [this, if_pos (by simpa using hn), big_small (by constructor <;> norm_num)]
  · have : sval l h / 2 ^ s = 0 := Int.ediv_eq_zero_of_lt (by omega) (by omega)
    rw [this, if_neg (by simpa using hn), big_small (by constructor <;> norm_num)]

/-! ### `lsh` -/

theorem lshLeft_low {l h : Word} {s : Nat} (hs : s < 64) : lshLeft l h s = .ok (big (wrap (sval l h * 2 ^ s))) := by
  obtain ⟨r, hr, hv, _⟩ := doubleShiftLeft_eq l h hs
  unfold lshLeft
  rw [if_pos hs, hr]
  exact interpret_of hv

theorem lshLeft_high {l h : Word} {s : Nat} (h0 : 64 ≤ s) (hs : s < 128) : lshLeft l h s = .ok (big (wrap (sval l h * 2 ^ s))) := by
  unfold lshLeft
  rw [if_neg (by omega), if_pos (by omega), unsignedShiftLeft_eq l (by omega)]
  apply interpret_of
  have hpow : (2 : Int) ^ s = 2 ^ (s - 64) * 2 ^ 64 := by rw [← pow_add]; congr 1; omega
  obtain ⟨k, hk⟩ := toNat_mod (l <<< (s - 64))
  rw [BitVec.toNat_shiftLeft, Nat.shiftLeft_eq] at hk
  have e := Nat.div_add_mod (l.toNat * 2 ^ (s - 64)) (2 ^ 64)
  have e' : (2 ^ 64 : Int) * ((l.toNat * 2 ^ (s - 64) / 2 ^ 64 : Nat) : Int) + ((l.toNat * 2 ^ (s - 64) % 2 ^ 64 : Nat) : Int) = (l.toNat : Int) * 2 ^ (s - 64) := by exact_mod_cast e
  apply eq_wrap (sval_in128 _ _) (k := -k - ((l.toNat * 2 ^ (s - 64) / 2 ^ 64 : Nat) : Int) - h.toInt * 2 ^ (s - 64))
  rw [sval_zero_high, show (l <<< (s - 64)).toInt = ((l.toNat * 2 ^ (s - 64) % 2 ^ 64 : Nat) : Int) - 2 ^ 64 * k by omega]
  unfold sval
  rw [hpow]
  rw [show ((l.toNat : Int) + 2 ^ 64 * h.toInt) * (2 ^ (s - 64) * 2 ^ 64) = (l.toNat * 2 ^ (s - 64)) * 2 ^ 64 + 2 ^ 128 * (h.toInt * 2 ^ (s - 64)) by ring, ← e']
  ring

theorem lshLeft_over {l h : Word} {s : Nat} (hs : 128 ≤ s) : lshLeft l h 128 = .ok (big (wrap (sval l h * 2 ^ s))) := by
  unfold lshLeft
  rw [if_neg (by omega), if_neg (by omega)]
  have hpow := pow_split (s := s) (t := 128) hs
  rw [wrap_congr (b := 0) (sval l h * 2 ^ (s - 128)) (by rw [hpow]; ring), wrap_of (by constructor <;> norm_num), big_small (by constructor <;> norm_num)]

theorem lshRight_low {l h : Word} {s : Nat} (hs : s < 64) : lshRight l h s = .ok (big (wrap (sval l h % 2 ^ 128 / 2 ^ s))) := by
  obtain ⟨r, hr, hv⟩ := doubleShiftRight_eq l h hs
  unfold lshRight
  rw [if_pos hs, hr]
  apply interpret_of
  show sval r.1 r.2 = _
  rw [hv, ← uval_eq]
  push_cast
  rfl

theorem lshRight_high {l h : Word} {s : Nat} (h0 : 64 ≤ s) (hs : s < 128) : lshRight l h s = .ok (big (wrap (sval l h % 2 ^ 128 / 2 ^ s))) := by
  unfold lshRight
  rw [if_neg (by omega), if_pos (by omega)]
  have e1 : lshr h ((s - 64 : Nat) : Int) = .ok (h >>> (s - 64)) := by unfold lshr; rw [if_pos (by omega)]; rfl
  rw [e1]
  apply interpret_of
  have hl := l.isLt
  have hh := h.isLt
  have hpow := pow_split_nat (s := s) (t := 64) (by omega)
  rw [← uval_eq, show ((uval l h : Int) / 2 ^ s) = ((uval l h / 2 ^ s : Nat) : Int) by push_cast; rfl]
  have e2 : uval l h / 2 ^ s = h.toNat / 2 ^ (s - 64) := by
    rw [hpow, ← Nat.div_div_eq_div_mul, show uval l h / 2 ^ 64 = h.toNat by unfold uval; omega]
  have e3 : h.toNat / 2 ^ (s - 64) ≤ h.toNat := Nat.div_le_self _ _
  unfold sval
  rw [e2, BitVec.toNat_ushiftRight, Nat.shiftRight_eq_div_pow, show (0 : Word).toInt = 0 from rfl]
  generalize h.toNat / 2 ^ (s - 64) = q at *
  rw [wrap_of (by constructor <;> omega)]
  omega

theorem lshRight_over {l h : Word} {s : Nat} (hs : 128 ≤ s) : lshRight l h 128 = .ok (big (wrap (sval l h % 2 ^ 128 / 2 ^ s))) := by
  unfold lshRight
  rw [if_neg (by omega), if_neg (by omega)]
  have hp1 : (2 : Int) ^ 128 ≤ 2 ^ s := by exact_mod_cast Nat.pow_le_pow_right (by omega) hs
  rw [Int.ediv_eq_zero_of_lt (by omega) (by omega), wrap_of (by constructor <;> norm_num), big_small (by constructor <;> norm_num)]

/-! ### Bits -/

theorem bit_sval (l h : Word) (i : Nat) : bit (sval l h) i = if i < 64 then l.getLsbD i else if i < 128 then h.getLsbD (i - 64) else decide (sval l h < 0) := by
  have hl := l.isLt
  by_cases h1 : i < 64
  · rw [if_pos h1, show l.getLsbD i = l.toNat.testBit i from rfl, ← bit_natCast]
    have : (l.toNat : Int) = sval l h - h.toInt * 2 ^ 64 := by unfold sval; ring
    rw [this, bit_sub_mul h1]
  · rw [if_neg h1]
    have hpow := pow_split (s := i) (t := 64) (by omega)
    have hd : sval l h / 2 ^ i = h.toInt / 2 ^ (i - 64) := by
      rw [hpow, ← Int.ediv_ediv_of_nonneg (by norm_num), sval_div]
    by_cases h2 : i < 128
    · rw [if_pos h2, getLsbD_bit _ (by omega)]
      unfold bit
      rw [hd]
    · rw [if_neg h2]
      obtain ⟨a, b⟩ := sval_in128 l h
      have hp1 : (2 : Int) ^ 128 ≤ 2 ^ i := by exact_mod_cast Nat.pow_le_pow_right (by omega) (by omega)
      unfold bit
      by_cases hn : sval l h < 0
      · have : sval l h / 2 ^ i = -1 := by rw [Int.ediv_eq_iff_of_pos (by positivity)]; omega
        rw [this]; simp [hn]
      · have : sval l h / 2 ^ i = 0 := Int.ediv_eq_zero_of_lt (by omega) (by omega)
        rw [this]; simp [hn]

/-- The sign is the highest bit. -/
theorem neg_sval (l h : Word) : decide (sval l h < 0) = h.getLsbD 63 := by
  have h1 := bit_sval l h 128
  have h2 := bit_sval l h 127
  rw [if_neg (by omega), if_neg (by omega)] at h1
  rw [if_neg (by omega), if_pos (by omega)] at h2
  rw [← h2]
  obtain ⟨a, b⟩ := sval_in128 l h
  unfold bit
  by_cases hn : sval l h < 0
  · have : sval l h / 2 ^ 127 = -1 := by omega
    rw [this]; simp [hn]
  · have : sval l h / 2 ^ 127 = 0 := by omega
    rw [this]; simp [hn]

/-- A function of words that works bit by bit. -/
theorem logical_words {fixed f : Word → Word → Word} {g : Bool → Bool → Bool} (hf : ∀ x y i, i < 64 → (f x y).getLsbD i = g (x.getLsbD i) (y.getLsbD i))
    (hfix : ∀ {a b : Int}, InRange a → InRange b → ∃ r, InRange r ∧ fixed (tag a) (tag b) = tag r ∧ ∀ i, bit r i = g (bit a i) (bit b i))
    {a b : Int} (ha : In128 a) (hb : In128 b) :
    ∃ r, In128 r ∧ logical fixed f (big a) (big b) = .ok (big r) ∧ ∀ i, bit r i = g (bit a i) (bit b i) := by
  by_cases hn : InRange a ∧ InRange b
  · obtain ⟨r, hr, he, hbit⟩ := hfix hn.1 hn.2
    refine ⟨r, inRange_in128 hr, ?_, hbit⟩
    rw [big_small hn.1, big_small hn.2, big_small hr, ← he]; rfl
  · refine ⟨sval (f (lowOf a) (lowOf b)) (f (highOf a) (highOf b)), sval_in128 _ _, ?_, ?_⟩
    · have : logical fixed f (big a) (big b) = interpret (f (lowOf a) (lowOf b)) (f (highOf a) (highOf b)) := by
        rw [← low_big ha, ← high_big ha, ← low_big hb, ← high_big hb]
        by_cases h1 : InRange a
        · have h2 : ¬ InRange b := fun h => hn ⟨h1, h⟩
          rw [big_small h1, big_double h2]; rfl
        · rw [big_double h1]
          by_cases h2 : InRange b
          · rw [big_small h2]; rfl
          · rw [big_double h2]; rfl
      rw [this, interpret_eq]
    · intro i
      rw [← sval_of ha, ← sval_of hb]
      rw [bit_sval, bit_sval, bit_sval]
      by_cases h1 : i < 64
      · rw [if_pos h1, if_pos h1, if_pos h1, hf _ _ _ h1, sval_of ha, sval_of hb]
      · rw [if_neg h1, if_neg h1, if_neg h1]
        by_cases h2 : i < 128
        · rw [if_pos h2, if_pos h2, if_pos h2, hf _ _ _ (by omega), sval_of ha, sval_of hb]
        · rw [if_neg h2, if_neg h2, if_neg h2, neg_sval, neg_sval, neg_sval, hf _ _ _ (by omega), sval_of ha, sval_of hb]

end Verif.BigInt
