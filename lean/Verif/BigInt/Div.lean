/-
Division, powers and digits in the model of the `big-integers` library.
-/
import Verif.BigInt.Shift

namespace Verif.BigInt
open Verif.Integer Verif.MachineWord

/-- One step: a dividend of a word that is not negative, by a positive divisor. -/
theorem step_ok {n d : Int} (hn : 0 ≤ n) (hn' : n < 2 ^ 63) (hd : 0 < d) (hd' : d < 2 ^ 61) {x dw : Word} (hx : x.toInt = n) (hdw : dw.toInt = d) :
    LLVM.doubleDivide x 0 dw = .ok (BitVec.ofInt 64 (n / d), BitVec.ofInt 64 (n % d)) := by
  have hs : sval x 0 = n := by
    unfold sval
    rw [toNat_of_toInt, hx, if_neg (by omega), show (0 : Word).toInt = 0 from rfl]; omega
  have hd0 : dw ≠ 0 := by rintro rfl; rw [show (0 : Word).toInt = 0 from rfl] at hdw; omega
  have hq0 : 0 ≤ n / d := Int.ediv_nonneg hn hd.le
  have hq1 : n / d ≤ n := Int.ediv_le_self _ hn
  have hq : InWord ((sval x 0).tdiv dw.toInt) := by
    rw [hs, hdw, Int.tdiv_eq_ediv_of_nonneg hn]; constructor <;> omega
  obtain ⟨q, r, h1, h2, h3⟩ := doubleDivide_spec hd0 hq
  rw [hs, hdw, Int.tdiv_eq_ediv_of_nonneg hn] at h2
  rw [hs, hdw, Int.tmod_eq_emod_of_nonneg hn] at h3
  rw [h1, eq_ofInt h2, eq_ofInt h3]

theorem nextDigit_ok {c g : Int} (hc : 0 ≤ c) (hc' : c < 2 ^ 31) (hg : 0 ≤ g) (hg' : g < 2 ^ 32) {cw gw : Word} (h1 : cw.toInt = c) (h2 : gw.toInt = g) :
    nextDigit cw gw = .ok (BitVec.ofInt 64 (c * 2 ^ 32 + g)) := by
  unfold nextDigit
  have hw : InWord (cw.toInt * 2 ^ (32 : Int).toNat) := by
    rw [h1, show (32 : Int).toNat = 32 from rfl]; constructor <;> omega
  rw [shlO_eq cw (by omega) (by omega), if_pos hw]
  show Out.ok (_ ||| gw) = _
  rw [h1, show (32 : Int).toNat = 32 from rfl]
  rw [h1, show (32 : Int).toNat = 32 from rfl] at hw
  congr 1
  have e1 : (BitVec.ofInt 64 (c * 2 ^ 32)).toInt = c * 2 ^ 32 := toInt_ofInt hw
  have e2 := toNat_of_toInt (BitVec.ofInt 64 (c * 2 ^ 32))
  have e3 := toNat_of_toInt gw
  rw [e1, if_neg (by omega)] at e2
  rw [h2, if_neg (by omega)] at e3
  have hor := or_add gw (BitVec.ofInt 64 (c * 2 ^ 32)) (k := 32) (by omega) (by omega)
  apply eq_ofInt
  have e4 := toNat_of_toInt (BitVec.ofInt 64 (c * 2 ^ 32) ||| gw)
  rw [BitVec.or_comm] at hor
  have hb := inWord_toInt (BitVec.ofInt 64 (c * 2 ^ 32) ||| gw)
  obtain ⟨b1, b2⟩ := hb
  by_cases hneg : (BitVec.ofInt 64 (c * 2 ^ 32) ||| gw).toInt < 0
  · rw [if_pos hneg] at e4; omega
  · rw [if_neg hneg] at e4; omega

theorem nextDigit_over {c : Int} (hc : 2 ^ 31 ≤ c) (hc' : c < 2 ^ 61) {cw gw : Word} (h1 : cw.toInt = c) : nextDigit cw gw = .overflow := by
  unfold nextDigit
  rw [shlO_eq cw (by omega) (by omega), if_neg]
  · rfl
  · rw [h1, show (32 : Int).toNat = 32 from rfl]
    rintro ⟨_, h⟩
    omega

theorem signWord_zero {x : Word} (h : 0 ≤ x.toInt) : signWord x = 0 := by
  unfold signWord
  rw [slt_zero, if_neg (by simpa using h)]

/-- The three steps are the division of the whole. -/
theorem three_steps {l h d : Int} (hd : 0 < d) :
    l + 2 ^ 64 * h = d * (h / d * 2 ^ 64 + (h % d * 2 ^ 32 + l / 2 ^ 32) / d * 2 ^ 32 + ((h % d * 2 ^ 32 + l / 2 ^ 32) % d * 2 ^ 32 + l % 2 ^ 32) / d) + ((h % d * 2 ^ 32 + l / 2 ^ 32) % d * 2 ^ 32 + l % 2 ^ 32) % d := by
  have e1 := Int.mul_ediv_add_emod h d
  have e2 := Int.mul_ediv_add_emod (h % d * 2 ^ 32 + l / 2 ^ 32) d
  have e3 := Int.mul_ediv_add_emod ((h % d * 2 ^ 32 + l / 2 ^ 32) % d * 2 ^ 32 + l % 2 ^ 32) d
  have e4 : l = l / 2 ^ 32 * 2 ^ 32 + l % 2 ^ 32 := by omega
  generalize ((h % d * 2 ^ 32 + l / 2 ^ 32) % d * 2 ^ 32 + l % 2 ^ 32) % d = r at *
  generalize ((h % d * 2 ^ 32 + l / 2 ^ 32) % d * 2 ^ 32 + l % 2 ^ 32) / d = q3 at *
  generalize (h % d * 2 ^ 32 + l / 2 ^ 32) % d = r2 at *
  generalize (h % d * 2 ^ 32 + l / 2 ^ 32) / d = q2 at *
  generalize h % d = r1 at *
  generalize h / d = q1 at *
  generalize l / 2 ^ 32 = lm at *
  generalize l % 2 ^ 32 = ll at *
  rw [e4, ← e1]
  have : d * (q1 * 2 ^ 64 + q2 * 2 ^ 32 + q3) + r = (d * q1) * 2 ^ 64 + (d * q2) * 2 ^ 32 + (d * q3 + r) := by ring
  rw [this, e3]
  have : d * q2 = r1 * 2 ^ 32 + lm - r2 := by omega
  rw [this]
  ring

theorem div_unique {n d q r : Int} (hd : 0 < d) (e : n = d * q + r) (h0 : 0 ≤ r) (h1 : r < d) : q = n / d ∧ r = n % d := by
  have := Int.ediv_emod_unique hd (a := n) (r := r) (q := q)
  have h := this.2 ⟨by omega, h0, h1⟩
  exact ⟨h.1.symm, h.2.symm⟩

theorem lt_ediv {n d : Int} (hd : 0 < d) {c g : Int} (hc : 0 ≤ c) (hc' : c < d) (hg : 0 ≤ g) (hg' : g < 2 ^ 32) (e : n = c * 2 ^ 32 + g) :
    0 ≤ n / d ∧ n / d < 2 ^ 32 := by
  subst e
  have h0 : 0 ≤ c * 2 ^ 32 + g := by positivity
  refine ⟨Int.ediv_nonneg h0 hd.le, ?_⟩
  apply Int.ediv_lt_of_lt_mul hd
  have : (c + 1) * 2 ^ 32 ≤ d * 2 ^ 32 := mul_le_mul_of_nonneg_right (by omega) (by norm_num)
  rw [mul_comm]
  omega

theorem word_add_zero (x : Word) : x + 0 = x := BitVec.add_zero x

theorem assemble_eq {ch qh qm ql : Word} {a b c : Int} (h1 : qh.toInt = a) (h2 : qm.toInt = b) (h3 : ql.toInt = c) (hb : 0 ≤ b) (hb' : b < 2 ^ 32) (hc : 0 ≤ c) (hc' : c < 2 ^ 32) :
    (assemble ch 0 qh qm ql).2 = qh ∧ ((assemble ch 0 qh qm ql).1.toNat : Int) = b * 2 ^ 32 + c := by
  have e : (if ch == 0 then (0 : Word) else 0) = 0 := by split <;> rfl
  unfold assemble
  dsimp only
  rw [e, word_add_zero, word_add_zero]
  refine ⟨rfl, ?_⟩
  have e2 := toNat_of_toInt qm
  have e3 := toNat_of_toInt ql
  rw [h2, if_neg (by omega)] at e2
  rw [h3, if_neg (by omega)] at e3
  have hlow : ((ql <<< 32) >>> 32).toNat = ql.toNat := by
    rw [BitVec.toNat_ushiftRight, BitVec.toNat_shiftLeft, Nat.shiftLeft_eq, Nat.shiftRight_eq_div_pow]
    omega
  have hhigh : (qm <<< 32).toNat = qm.toNat * 2 ^ 32 := by
    rw [BitVec.toNat_shiftLeft, Nat.shiftLeft_eq]
    omega
  rw [BitVec.or_comm, or_add _ _ (k := 32) (by rw [hlow]; omega) (by rw [hhigh]; omega), hlow, hhigh]
  push_cast
  omega

theorem adjust_none {dividend : Big} {d r : Int} {q1 q2 rw : Word} (hn : dividend.isNegative = false) (hr : rw.toInt = r) (h0 : 0 ≤ r) (h1 : r < 2 ^ 61) :
    adjustResult dividend (tag d) q1 q2 rw = .ok (q1, q2, tag r) := by
  have hrange : InRange r := by constructor <;> omega
  have hz : InRange (0 : Int) := by constructor <;> norm_num
  have hw : ∀ q : Word, InWord (q.toInt + (0 : Word).toInt) := fun q => by
    rw [show (0 : Word).toInt = 0 from rfl, Int.add_zero]; exact inWord_toInt _
  have ha : ∀ q : Word, addO q 0 = .ok q := fun q => by
    rw [addO_eq, if_pos (hw q), word_add_zero]
  unfold adjustResult
  rw [coerce_ok hrange hr]
  simp only [Bind.bind, Out.bind]
  have e : (!eqI (tag r) (tag 0) && (ltI (tag r) (tag 0) != dividend.isNegative)) = false := by
    rw [hn, ltI_tag hrange hz]
    simp [show ¬ r < 0 by omega]
  rw [e]
  show ((addO q2 (signWord 0)).bind fun h => (addO h (addCarry q1 0).2).bind fun h => (Integer.minus (tag r) (tag 0)).bind fun r => Out.ok ((addCarry q1 0).1, h, r)) = _
  have e1 : signWord (0 : Word) = 0 := rfl
  have e2 : addCarry q1 0 = (q1, 0) := by
    unfold addCarry
    rw [word_add_zero, show (0 : Word).toNat = 0 from rfl, if_pos (by have := q1.isLt; omega)]
  rw [e1, ha, e2]
  show ((addO q2 0).bind fun h => (Integer.minus (tag r) (tag 0)).bind fun r => Out.ok (q1, h, r)) = _
  rw [ha, minus_tag hrange hz, Int.sub_zero, if_pos hrange]
  rfl

/-- A dividend that is not negative, by a positive divisor: the quotient and the remainder, or an overflow if the
    divisor is greater than `2^31`. -/
theorem divideWords_eq {n d : Int} (hn : 0 ≤ n) (hn' : In128 n) (hnr : ¬ InRange n) (hd : 0 < d) (hd' : InRange d) :
    (d ≤ 2 ^ 31 ∧ divideWords (lowOf n) (highOf n) (tag d) = .ok (lowOf (n / d), highOf (n / d), tag (n % d))) ∨
    (2 ^ 31 < d ∧ (divideWords (lowOf n) (highOf n) (tag d) = .overflow ∨ divideWords (lowOf n) (highOf n) (tag d) = .ok (lowOf (n / d), highOf (n / d), tag (n % d)))) := by
  obtain ⟨d1, d2⟩ := hd'
  have hl : ((lowOf n).toNat : Int) = n % 2 ^ 64 := toNat_lowOf n
  have hh := toInt_highOf hn'
  obtain ⟨n1, n2⟩ := hn'
  have hhn : 0 ≤ n / 2 ^ 64 := by omega
  have hhn' : n / 2 ^ 64 < 2 ^ 63 := by omega
  have hdw : (untag (tag d)).toInt = d := toInt_untag_tag ⟨d1, d2⟩
  have hslt : ((highOf n).slt 0 != ltI (tag d) (tag 0)) = false := by
    rw [slt_zero, hh, ltI_tag ⟨d1, d2⟩ (by constructor <;> norm_num)]
    rw [decide_eq_false (by omega), decide_eq_false (by omega)]; rfl
  set L := n % 2 ^ 64 with hL
  set H := n / 2 ^ 64 with hH
  have hnLH : n = L + 2 ^ 64 * H := by omega
  have hL0 : 0 ≤ L := by omega
  have hL1 : L < 2 ^ 64 := by omega
  have r1a : 0 ≤ H % d := Int.emod_nonneg _ (by omega)
  have r1b : H % d < d := Int.emod_lt_of_pos _ hd
  set M := H % d * 2 ^ 32 + L / 2 ^ 32 with hM
  have r2a : 0 ≤ M % d := Int.emod_nonneg _ (by omega)
  have r2b : M % d < d := Int.emod_lt_of_pos _ hd
  set W := M % d * 2 ^ 32 + L % 2 ^ 32 with hW
  have r3a : 0 ≤ W % d := Int.emod_nonneg _ (by omega)
  have r3b : W % d < d := Int.emod_lt_of_pos _ hd
  have q2 := lt_ediv hd r1a r1b (g := L / 2 ^ 32) (by omega) (by omega) hM
  have q3 := lt_ediv hd r2a r2b (g := L % 2 ^ 32) (by omega) (by omega) hW
  have hq := div_unique hd (three_steps (l := L) (h := H) hd) r3a r3b
  rw [← hnLH] at hq
  have g1 : (lowOf n >>> 32).toInt = L / 2 ^ 32 := by
    have e := toNat_of_toInt (lowOf n >>> 32)
    rw [BitVec.toNat_ushiftRight, Nat.shiftRight_eq_div_pow] at e
    have hb := inWord_toInt (lowOf n >>> 32)
    obtain ⟨b1, b2⟩ := hb
    by_cases hneg : (lowOf n >>> 32).toInt < 0
    · rw [if_pos hneg] at e; omega
    · rw [if_neg hneg] at e; omega
  have g2 : ((lowOf n <<< 32) >>> 32).toInt = L % 2 ^ 32 := by
    have e := toNat_of_toInt ((lowOf n <<< 32) >>> 32)
    rw [BitVec.toNat_ushiftRight, BitVec.toNat_shiftLeft, Nat.shiftLeft_eq, Nat.shiftRight_eq_div_pow] at e
    have hb := inWord_toInt ((lowOf n <<< 32) >>> 32)
    obtain ⟨b1, b2⟩ := hb
    by_cases hneg : ((lowOf n <<< 32) >>> 32).toInt < 0
    · rw [if_pos hneg] at e; omega
    · rw [if_neg hneg] at e; omega
  have w1 : (BitVec.ofInt 64 (H % d)).toInt = H % d := toInt_ofInt (by constructor <;> omega)
  have w2 : (BitVec.ofInt 64 (M % d)).toInt = M % d := toInt_ofInt (by constructor <;> omega)
  have w3 : (BitVec.ofInt 64 (W % d)).toInt = W % d := toInt_ofInt (by constructor <;> omega)
  have v1 : (BitVec.ofInt 64 (H / d)).toInt = H / d := toInt_ofInt (by
    have := Int.ediv_le_self d hhn
    have := Int.ediv_nonneg hhn hd.le
    constructor <;> omega)
  have v2 : (BitVec.ofInt 64 (M / d)).toInt = M / d := toInt_ofInt (by constructor <;> omega)
  have v3 : (BitVec.ofInt 64 (W / d)).toInt = W / d := toInt_ofInt (by constructor <;> omega)
  have s1 := step_ok hhn hhn' hd (by omega) hh hdw
  have key : divideWords (lowOf n) (highOf n) (tag d) =
      ((nextDigit (BitVec.ofInt 64 (H % d)) (lowOf n >>> 32)).bind fun middle =>
        (LLVM.doubleDivide middle 0 (untag (tag d))).bind fun p =>
          (nextDigit p.2 ((lowOf n <<< 32) >>> 32)).bind fun low =>
            (LLVM.doubleDivide low (signWord p.2) (untag (tag d))).bind fun p' =>
              adjustResult (.double (lowOf n) (highOf n)) (tag d) (assemble (BitVec.ofInt 64 (H % d)) 0 (BitVec.ofInt 64 (H / d)) p.1 p'.1).1
                (assemble (BitVec.ofInt 64 (H % d)) 0 (BitVec.ofInt 64 (H / d)) p.1 p'.1).2 p'.2) := by
    unfold divideWords
    rw [hslt, signWord_zero (x := highOf n) (by omega)]
    show (LLVM.doubleDivide (highOf n) 0 (untag (tag d))).bind _ = _
    rw [s1]
    show ((nextDigit (BitVec.ofInt 64 (H % d)) (lowOf n >>> 32)).bind fun middle =>
        (LLVM.doubleDivide middle (signWord (BitVec.ofInt 64 (H % d))) (untag (tag d))).bind _) = _
    rw [signWord_zero (x := BitVec.ofInt 64 (H % d)) (by omega)]
    rfl
  have fin : H % d < 2 ^ 31 → M % d < 2 ^ 31 → divideWords (lowOf n) (highOf n) (tag d) = .ok (lowOf (n / d), highOf (n / d), tag (n % d)) := by
    intro c1 c2
    have hM0 : 0 ≤ M := by omega
    have hM1 : M < 2 ^ 63 := by omega
    have hW0 : 0 ≤ W := by omega
    have hW1 : W < 2 ^ 63 := by omega
    rw [key, nextDigit_ok r1a c1 (by omega) (by omega) w1 g1]
    show (LLVM.doubleDivide (BitVec.ofInt 64 M) 0 (untag (tag d))).bind _ = _
    rw [step_ok hM0 hM1 hd (by omega) (toInt_ofInt (by constructor <;> omega)) hdw]
    show (nextDigit (BitVec.ofInt 64 (M % d)) ((lowOf n <<< 32) >>> 32)).bind _ = _
    rw [nextDigit_ok r2a c2 (by omega) (by omega) w2 g2]
    show (LLVM.doubleDivide (BitVec.ofInt 64 W) (signWord (BitVec.ofInt 64 (M % d))) (untag (tag d))).bind _ = _
    rw [signWord_zero (x := BitVec.ofInt 64 (M % d)) (by omega), step_ok hW0 hW1 hd (by omega) (toInt_ofInt (by constructor <;> omega)) hdw]
    show adjustResult _ _ _ _ _ = _
    obtain ⟨a1, a2⟩ := assemble_eq (ch := BitVec.ofInt 64 (H % d)) v1 v2 v3 q2.1 q2.2 q3.1 q3.2
    have hneg : (Big.double (lowOf n) (highOf n)).isNegative = false := by
      show (highOf n).slt 0 = false
      rw [slt_zero, hh]; simp; omega
    rw [adjust_none hneg w3 r3a (by omega), ← hq.2]
    dsimp only
    rw [a1]
    have hsv : sval (assemble (BitVec.ofInt 64 (H % d)) 0 (BitVec.ofInt 64 (H / d)) (BitVec.ofInt 64 (M / d)) (BitVec.ofInt 64 (W / d))).1 (BitVec.ofInt 64 (H / d)) = n / d := by
      unfold sval
      rw [v1, a2, ← hq.1]; ring
    have hw := words_of_sval hsv
    rw [← hw.1, ← hw.2]
  by_cases hle : d ≤ 2 ^ 31
  · exact .inl ⟨hle, fin (by omega) (by omega)⟩
  · refine .inr ⟨by omega, ?_⟩
    by_cases c1 : H % d < 2 ^ 31
    · by_cases c2 : M % d < 2 ^ 31
      · exact .inr (fin c1 c2)
      · left
        have hM0 : 0 ≤ M := by omega
        have hM1 : M < 2 ^ 63 := by omega
        rw [key, nextDigit_ok r1a c1 (by omega) (by omega) w1 g1]
        show (LLVM.doubleDivide (BitVec.ofInt 64 M) 0 (untag (tag d))).bind _ = _
        rw [step_ok hM0 hM1 hd (by omega) (toInt_ofInt (by constructor <;> omega)) hdw]
        show (nextDigit (BitVec.ofInt 64 (M % d)) ((lowOf n <<< 32) >>> 32)).bind _ = _
        rw [nextDigit_over (by omega) (by omega) w2]
        rfl
    · left
      rw [key, nextDigit_over (by omega) (by omega) w1]
      rfl

end Verif.BigInt
