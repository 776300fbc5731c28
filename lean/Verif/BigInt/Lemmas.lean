/-
Words and numbers.
-/
import Verif.BigInt.Spec
import Verif.MachineWord.Props
import Verif.Integer.Props

namespace Verif.BigInt
open Verif.Integer Verif.MachineWord

theorem sval_in128 (l h : Word) : In128 (sval l h) := by
  have := l.isLt
  obtain ⟨a, b⟩ := inWord_toInt h
  unfold sval In128
  constructor <;> omega

theorem toNat_lowOf (n : Int) : ((lowOf n).toNat : Int) = n % 2 ^ 64 := by
  unfold lowOf
  rw [BitVec.toNat_ofInt]
  have : (0 : Int) ≤ n % ((2 ^ 64 : Nat) : Int) := Int.emod_nonneg _ (by decide)
  rw [Int.toNat_of_nonneg this]
  norm_num

theorem toInt_highOf {n : Int} (h : In128 n) : (highOf n).toInt = n / 2 ^ 64 := by
  obtain ⟨h1, h2⟩ := h
  unfold highOf
  rw [toInt_ofInt]
  constructor <;> omega

theorem sval_of {n : Int} (h : In128 n) : sval (lowOf n) (highOf n) = n := by
  unfold sval
  rw [toNat_lowOf, toInt_highOf h]
  omega

theorem sval_words {l h : Word} : lowOf (sval l h) = l ∧ highOf (sval l h) = h := by
  have hl := l.isLt
  have hin := sval_in128 l h
  constructor
  · apply BitVec.eq_of_toNat_eq
    have := toNat_lowOf (sval l h)
    unfold sval at this ⊢
    omega
  · apply BitVec.eq_of_toInt_eq
    rw [toInt_highOf hin]
    unfold sval
    omega

theorem words_of_sval {l h : Word} {n : Int} (e : sval l h = n) : l = lowOf n ∧ h = highOf n := by
  subst e
  exact ⟨sval_words.1.symm, sval_words.2.symm⟩

theorem inRange_in128 {n : Int} (h : InRange n) : In128 n := by
  obtain ⟨a, b⟩ := h
  constructor <;> omega

theorem signWord_toInt (x : Word) : (signWord x).toInt = if x.toInt < 0 then -1 else 0 := by
  unfold signWord
  rw [slt_zero]
  by_cases h : x.toInt < 0
  · simp [h]
  · simp [h]

theorem toNat_of_toInt (x : Word) : (x.toNat : Int) = if x.toInt < 0 then x.toInt + 2 ^ 64 else x.toInt := by
  have h := BitVec.toInt_eq_toNat_cond x
  have := x.isLt
  by_cases h0 : x.toInt < 0
  · rw [if_pos h0]
    split at h <;> omega
  · rw [if_neg h0]
    split at h <;> omega

/-- A word with its sign word. -/
theorem sval_sign (x : Word) : sval x (signWord x) = x.toInt := by
  unfold sval
  rw [signWord_toInt, toNat_of_toInt]
  by_cases h : x.toInt < 0
  · rw [if_pos h, if_pos h]; omega
  · rw [if_neg h, if_neg h]; omega

theorem sval_big {n : Int} (h : In128 n) : sval (big n).low (big n).high = n := by
  unfold big
  by_cases hr : InRange n
  · rw [if_pos hr]
    show sval (untag (tag n)) (signWord (untag (tag n))) = n
    rw [sval_sign, toInt_untag_tag hr]
  · rw [if_neg hr]
    exact sval_of h

theorem low_big {n : Int} (h : In128 n) : (big n).low = lowOf n := (words_of_sval (sval_big h)).1

theorem high_big {n : Int} (h : In128 n) : (big n).high = highOf n := (words_of_sval (sval_big h)).2

theorem isInteger_iff (l h : Word) : isInteger l h = true ↔ InRange (sval l h) := by
  unfold isInteger
  have e1 : (h == l.sshiftRight 61) = decide (h.toInt = l.toInt / 2 ^ 61) := by
    rw [Bool.eq_iff_iff, beq_iff_eq, decide_eq_true_eq, ← BitVec.toInt_inj, BitVec.toInt_sshiftRight, Int.shiftRight_eq_div_pow]
    norm_num
  have e2 : (h == 0) = decide (h.toInt = 0) := by
    rw [Bool.eq_iff_iff, beq_iff_eq, decide_eq_true_eq, ← BitVec.toInt_inj]
    simp
  have e3 : (h == -1) = decide (h.toInt = -1) := by
    rw [Bool.eq_iff_iff, beq_iff_eq, decide_eq_true_eq, ← BitVec.toInt_inj]
    rfl
  rw [e1, e2, e3]
  simp only [Bool.and_eq_true, Bool.or_eq_true, decide_eq_true_eq]
  have hl := toNat_of_toInt l
  obtain ⟨a, b⟩ := inWord_toInt l
  unfold sval InRange
  by_cases h0 : l.toInt < 0
  · rw [if_pos h0] at hl
    constructor
    · rintro ⟨h1, h2⟩
      constructor <;> omega
    · rintro ⟨h1, h2⟩
      constructor <;> omega
  · rw [if_neg h0] at hl
    constructor
    · rintro ⟨h1, h2⟩
      constructor <;> omega
    · rintro ⟨h1, h2⟩
      constructor <;> omega

theorem coerce_ok {x : Word} {n : Int} (h : InRange n) (e : x.toInt = n) : coerce x = .ok (tag n) := by
  rw [coerce_eq, e, if_pos h]

/-- Two words are the number they denote. -/
theorem interpret_eq (l h : Word) : interpret l h = .ok (big (sval l h)) := by
  unfold interpret big
  by_cases hr : InRange (sval l h)
  · rw [if_pos ((isInteger_iff l h).2 hr), if_pos hr]
    have e : l.toInt = sval l h := sval_inj (by obtain ⟨a, b⟩ := hr; constructor <;> omega) rfl
    rw [coerce_ok hr e]
  · rw [if_neg (by rw [isInteger_iff]; exact hr), if_neg hr]
    show Out.ok (Big.double l h) = .ok (Big.double (lowOf (sval l h)) (highOf (sval l h)))
    rw [sval_words.1, sval_words.2]

theorem interpret_of {l h : Word} {n : Int} (e : sval l h = n) : interpret l h = .ok (big n) := by
  rw [interpret_eq, e]

theorem double_of {l h : Word} {n : Int} (e : sval l h = n) (hr : ¬ InRange n) : Big.double l h = big n := by
  unfold big
  rw [if_neg hr]
  obtain ⟨h1, h2⟩ := words_of_sval e
  rw [h1, h2]
  rfl

theorem isNegative_big {n : Int} (h : In128 n) : (big n).isNegative = decide (n < 0) := by
  unfold big
  by_cases hr : InRange n
  · rw [if_pos hr]
    exact ltI_tag hr (by decide)
  · rw [if_neg hr]
    show (highOf n).slt 0 = _
    rw [slt_zero, toInt_highOf h]
    apply decide_eq_decide.mpr
    omega

theorem isZero_big (n : Int) : (big n).isZero = decide (n = 0) := by
  unfold big
  by_cases hr : InRange n
  · rw [if_pos hr]
    exact eqI_tag hr (by decide)
  · rw [if_neg hr]
    show false = _
    symm
    rw [decide_eq_false_iff_not]
    rintro rfl
    exact hr (by decide)

theorem isPositive_big {n : Int} (h : In128 n) : (big n).isPositive = decide (0 < n) := by
  by_cases hr : InRange n
  · unfold big
    rw [if_pos hr]
    exact ltI_tag (by decide) hr
  · have h1 := isNegative_big h
    have h2 := isZero_big n
    unfold big at h1 h2 ⊢
    rw [if_neg hr] at h1 h2 ⊢
    unfold Big.isPositive
    dsimp only
    rw [h1, h2, Bool.eq_iff_iff]
    simp
    omega

theorem addO_eq (x y : Word) : addO x y = if InWord (x.toInt + y.toInt) then .ok (x + y) else .overflow := rfl

theorem addCarry_val (x y : Word) : ((addCarry x y).1.toNat : Int) + 2 ^ 64 * (addCarry x y).2.toInt = x.toNat + y.toNat ∧ (addCarry x y).2.toInt = if x.toNat + y.toNat < 2 ^ 64 then 0 else 1 := by
  have hx := x.isLt
  have hy := y.isLt
  unfold addCarry
  dsimp only
  rw [BitVec.toNat_add]
  by_cases h : x.toNat + y.toNat < 2 ^ 64
  · rw [if_pos h, if_pos h]
    constructor
    · simp; omega
    · rfl
  · rw [if_neg h, if_neg h]
    constructor
    · simp; omega
    · rfl

theorem subBorrow_val (x y : Word) : ((subBorrow x y).1.toNat : Int) - 2 ^ 64 * (subBorrow x y).2.toInt = (x.toNat : Int) - y.toNat ∧ (subBorrow x y).2.toInt = if y.toNat ≤ x.toNat then 0 else 1 := by
  have hx := x.isLt
  have hy := y.isLt
  unfold subBorrow
  dsimp only
  rw [BitVec.toNat_sub]
  by_cases h : y.toNat ≤ x.toNat
  · rw [if_pos h, if_pos h]
    constructor
    · simp; omega
    · rfl
  · rw [if_neg h, if_neg h]
    constructor
    · simp; omega
    · rfl

theorem addHigh {γ : Type} (xl xh yl yh : Word) (k : Word → Word → Out γ) :
    ((addO xh yh).bind fun high => (addO high (addCarry xl yl).2).bind fun high => k (addCarry xl yl).1 high) =
    if InWord (xh.toInt + yh.toInt) ∧ In128 (sval xl xh + sval yl yh) then k (lowOf (sval xl xh + sval yl yh)) (highOf (sval xl xh + sval yl yh)) else .overflow := by
  obtain ⟨h1, h2⟩ := addCarry_val xl yl
  have hs := (addCarry xl yl).1.isLt
  rw [addO_eq]
  by_cases hw : InWord (xh.toInt + yh.toInt)
  · rw [if_pos hw]
    show ((addO (xh + yh) (addCarry xl yl).2).bind fun high => k (addCarry xl yl).1 high) = _
    rw [addO_eq, toInt_add hw]
    by_cases hw2 : InWord (xh.toInt + yh.toInt + (addCarry xl yl).2.toInt)
    · rw [if_pos hw2]
      have e : sval (addCarry xl yl).1 (xh + yh + (addCarry xl yl).2) = sval xl xh + sval yl yh := by
        unfold sval
        rw [toInt_add (by rw [toInt_add hw]; exact hw2), toInt_add hw]
        omega
      rw [if_pos ⟨hw, by rw [← e]; exact sval_in128 _ _⟩, ← (words_of_sval e).1, ← (words_of_sval e).2]
      rfl
    · rw [if_neg hw2, if_neg]
      · rfl
      · rintro ⟨_, h3, h4⟩
        unfold sval at h3 h4
        exact hw2 (by constructor <;> omega)
  · rw [if_neg hw, if_neg (by rintro ⟨h, _⟩; exact hw h)]
    rfl

theorem subHigh {γ : Type} (xl xh yl yh : Word) (k : Word → Word → Out γ) :
    ((subO xh yh).bind fun high => (subO high (subBorrow xl yl).2).bind fun high => k (subBorrow xl yl).1 high) =
    if InWord (xh.toInt - yh.toInt) ∧ In128 (sval xl xh - sval yl yh) then k (lowOf (sval xl xh - sval yl yh)) (highOf (sval xl xh - sval yl yh)) else .overflow := by
  obtain ⟨h1, h2⟩ := subBorrow_val xl yl
  have hs := (subBorrow xl yl).1.isLt
  unfold subO
  by_cases hw : InWord (xh.toInt - yh.toInt)
  · rw [if_pos hw]
    show ((subO (xh - yh) (subBorrow xl yl).2).bind fun high => k (subBorrow xl yl).1 high) = _
    unfold subO
    rw [toInt_sub hw]
    by_cases hw2 : InWord (xh.toInt - yh.toInt - (subBorrow xl yl).2.toInt)
    · rw [if_pos hw2]
      have e : sval (subBorrow xl yl).1 (xh - yh - (subBorrow xl yl).2) = sval xl xh - sval yl yh := by
        unfold sval
        rw [toInt_sub (by rw [toInt_sub hw]; exact hw2), toInt_sub hw]
        omega
      rw [if_pos ⟨hw, by rw [← e]; exact sval_in128 _ _⟩, ← (words_of_sval e).1, ← (words_of_sval e).2]
      rfl
    · rw [if_neg hw2, if_neg]
      · rfl
      · rintro ⟨_, h3, h4⟩
        unfold sval at h3 h4
        exact hw2 (by constructor <;> omega)
  · rw [if_neg hw, if_neg (by rintro ⟨h, _⟩; exact hw h)]
    rfl

theorem big_small {n : Int} (h : InRange n) : big n = .small (tag n) := if_pos h

theorem big_double {n : Int} (h : ¬ InRange n) : big n = .double (lowOf n) (highOf n) := if_neg h

theorem plus_words {a b : Int} (ha : In128 a) (hb : In128 b) (hn : ¬ (InRange a ∧ InRange b)) :
    plus (big a) (big b) = plusWords (lowOf a) (highOf a) (lowOf b) (highOf b) := by
  rw [← low_big ha, ← high_big ha, ← low_big hb, ← high_big hb]
  by_cases h1 : InRange a
  · have h2 : ¬ InRange b := fun h => hn ⟨h1, h⟩
    rw [big_small h1, big_double h2]; rfl
  · by_cases h2 : InRange b
    · rw [big_double h1, big_small h2]; rfl
    · rw [big_double h1, big_double h2]; rfl

theorem minus_words {a b : Int} (ha : In128 a) (hb : In128 b) (hn : ¬ (InRange a ∧ InRange b)) :
    minus (big a) (big b) = minusWords (lowOf a) (highOf a) (lowOf b) (highOf b) := by
  rw [← low_big ha, ← high_big ha, ← low_big hb, ← high_big hb]
  by_cases h1 : InRange a
  · have h2 : ¬ InRange b := fun h => hn ⟨h1, h⟩
    rw [big_small h1, big_double h2]; rfl
  · by_cases h2 : InRange b
    · rw [big_double h1, big_small h2]; rfl
    · rw [big_double h1, big_double h2]; rfl

theorem untag_sval {a : Int} (ha : InRange a) : sval (untag (tag a)) (signWord (untag (tag a))) = a := by
  rw [sval_sign, toInt_untag_tag ha]

/-- The sum of the high words and the sum. -/
theorem plus_eq {a b : Int} (ha : In128 a) (hb : In128 b) :
    plus (big a) (big b) = if (InRange a ∧ InRange b) ∨ (InWord (a / 2 ^ 64 + b / 2 ^ 64) ∧ In128 (a + b)) then .ok (big (a + b)) else .overflow := by
  by_cases hn : InRange a ∧ InRange b
  · rw [if_pos (.inl hn), big_small hn.1, big_small hn.2]
    have ht := plus_tag hn.1 hn.2
    unfold Integer.plus addO at ht
    unfold plus addFlag
    dsimp only
    by_cases hw : InWord ((tag a).toInt + (strip (tag b)).toInt)
    · rw [if_pos hw] at ht
      have hr : InRange (a + b) := by
        by_cases h : InRange (a + b)
        · exact h
        · rw [if_neg h] at ht; cases ht
      rw [if_pos hr] at ht
      injection ht with ht
      rw [if_neg (by simpa using hw), big_small hr, ht]
    · rw [if_neg hw] at ht
      have hr : ¬ InRange (a + b) := by
        intro h
        rw [if_pos h] at ht; cases ht
      rw [if_pos (by simpa using hw)]
      have := addHigh (untag (tag a)) (signWord (untag (tag a))) (untag (tag b)) (signWord (untag (tag b))) (fun l h => Out.ok (Big.double l h))
      rw [untag_sval hn.1, untag_sval hn.2] at this
      refine Eq.trans this ?_
      obtain ⟨⟨a1, a2⟩, b1, b2⟩ := hn
      rw [if_pos, big_double hr]
      refine ⟨?_, by constructor <;> omega⟩
      rw [signWord_toInt, signWord_toInt]
      constructor <;> (split <;> split <;> omega)
  · rw [plus_words ha hb hn]
    have := addHigh (lowOf a) (highOf a) (lowOf b) (highOf b) interpret
    rw [sval_of ha, sval_of hb, toInt_highOf ha, toInt_highOf hb] at this
    refine Eq.trans this ?_
    by_cases hc : InWord (a / 2 ^ 64 + b / 2 ^ 64) ∧ In128 (a + b)
    · rw [if_pos hc, if_pos (.inr hc), interpret_of (sval_of hc.2)]
    · rw [if_neg hc, if_neg (by rintro (h | h); exacts [hn h, hc h])]

theorem minus_eq {a b : Int} (ha : In128 a) (hb : In128 b) :
    minus (big a) (big b) = if (InRange a ∧ InRange b) ∨ (InWord (a / 2 ^ 64 - b / 2 ^ 64) ∧ In128 (a - b)) then .ok (big (a - b)) else .overflow := by
  by_cases hn : InRange a ∧ InRange b
  · rw [if_pos (.inl hn), big_small hn.1, big_small hn.2]
    have ht := minus_tag hn.1 hn.2
    unfold Integer.minus subO at ht
    unfold minus subFlag
    dsimp only
    by_cases hw : InWord ((tag a).toInt - (strip (tag b)).toInt)
    · rw [if_pos hw] at ht
      have hr : InRange (a - b) := by
        by_cases h : InRange (a - b)
        · exact h
        · rw [if_neg h] at ht; cases ht
      rw [if_pos hr] at ht
      injection ht with ht
      rw [if_neg (by simpa using hw), big_small hr, ht]
    · rw [if_neg hw] at ht
      have hr : ¬ InRange (a - b) := by
        intro h
        rw [if_pos h] at ht; cases ht
      rw [if_pos (by simpa using hw)]
      have := subHigh (untag (tag a)) (signWord (untag (tag a))) (untag (tag b)) (signWord (untag (tag b))) (fun l h => Out.ok (Big.double l h))
      rw [untag_sval hn.1, untag_sval hn.2] at this
      refine Eq.trans this ?_
      obtain ⟨⟨a1, a2⟩, b1, b2⟩ := hn
      rw [if_pos, big_double hr]
      refine ⟨?_, by constructor <;> omega⟩
      rw [signWord_toInt, signWord_toInt]
      constructor <;> (split <;> split <;> omega)
  · rw [minus_words ha hb hn]
    have := subHigh (lowOf a) (highOf a) (lowOf b) (highOf b) interpret
    rw [sval_of ha, sval_of hb, toInt_highOf ha, toInt_highOf hb] at this
    refine Eq.trans this ?_
    by_cases hc : InWord (a / 2 ^ 64 - b / 2 ^ 64) ∧ In128 (a - b)
    · rw [if_pos hc, if_pos (.inr hc), interpret_of (sval_of hc.2)]
    · rw [if_neg hc, if_neg (by rintro (h | h); exacts [hn h, hc h])]

theorem sval_not (l h : Word) : sval (~~~ l) (~~~ h) = -1 - sval l h := by
  have hl := l.isLt
  have h1 : (~~~ l).toNat = 2 ^ 64 - 1 - l.toNat := BitVec.toNat_not
  have h2 : (~~~ h).toInt = -1 - h.toInt := by
    have e1 : (~~~ h).toNat = 2 ^ 64 - 1 - h.toNat := BitVec.toNat_not
    have e2 := toNat_of_toInt h
    have e3 := toNat_of_toInt (~~~ h)
    obtain ⟨a, b⟩ := inWord_toInt h
    obtain ⟨c, d⟩ := inWord_toInt (~~~ h)
    have := h.isLt
    split at e2 <;> split at e3 <;> omega
  unfold sval
  rw [h1, h2]
  omega

theorem negateWords_eq (l h : Word) : negateWords l h = if In128 (- sval l h) then .ok (lowOf (- sval l h), highOf (- sval l h)) else .overflow := by
  have hn := sval_not l h
  have := addHigh (~~~ l) (~~~ h) 1 0 (fun l h => Out.ok (l, h))
  have e0 : sval 1 0 = 1 := rfl
  have hw : InWord ((~~~ h).toInt + (0 : Word).toInt) := by
    rw [toInt_zero', Int.add_zero]; exact inWord_toInt _
  have hz : addO (~~~ h) 0 = .ok (~~~ h) := by
    rw [addO_eq, if_pos hw]; simp
  rw [hz] at this
  rw [hn, e0, show -1 - sval l h + 1 = - sval l h by omega] at this
  refine Eq.trans this ?_
  by_cases hc : In128 (- sval l h)
  · rw [if_pos ⟨hw, hc⟩, if_pos hc]
  · rw [if_neg (fun h => hc h.2), if_neg hc]

theorem negate_small {a : Int} (ha : InRange a) :
    (addO (signWord (~~~ (untag (tag a)))) (addCarry (~~~ (untag (tag a))) 1).2).bind (fun high => Out.ok (Big.double (addCarry (~~~ (untag (tag a))) 1).1 high)) =
    .ok (.double (lowOf (-a)) (highOf (-a))) := by
  generalize hx : ~~~ (untag (tag a)) = x
  have e : sval x (signWord x) = -1 - a := by
    have h1 := sval_not (untag (tag a)) (signWord (untag (tag a)))
    rw [untag_sval ha] at h1
    have h2 : ~~~ (signWord (untag (tag a))) = signWord x := by
      subst hx
      apply BitVec.eq_of_toInt_eq
      have h3 := sval_not (untag (tag a)) (signWord (untag (tag a)))
      rw [untag_sval ha] at h3
      have hl := (~~~ (untag (tag a))).isLt
      have ht := toNat_of_toInt (~~~ (untag (tag a)))
      rw [signWord_toInt]
      unfold sval at h3
      obtain ⟨a1, a2⟩ := ha
      obtain ⟨b1, b2⟩ := inWord_toInt (~~~ (untag (tag a)))
      split at ht
      · rw [if_pos (by assumption)]; omega
      · rw [if_neg (by assumption)]; omega
    rw [← hx, ← h2, hx] at *
    exact h1
  have := addHigh x (signWord x) 1 0 (fun l h => Out.ok (Big.double l h))
  have e0 : sval 1 0 = 1 := rfl
  have hw : InWord ((signWord x).toInt + (0 : Word).toInt) := by
    rw [toInt_zero', Int.add_zero]; exact inWord_toInt _
  have hz : addO (signWord x) 0 = .ok (signWord x) := by
    rw [addO_eq, if_pos hw]; simp
  rw [hz, e, e0, show -1 - a + 1 = -a by omega] at this
  refine Eq.trans this ?_
  obtain ⟨a1, a2⟩ := ha
  rw [if_pos ⟨hw, by constructor <;> omega⟩]

theorem negate_eq {a : Int} (ha : In128 a) : negate (big a) = if In128 (-a) then .ok (big (-a)) else .overflow := by
  by_cases hr : InRange a
  · have hi : In128 (-a) := by obtain ⟨a1, a2⟩ := hr; constructor <;> omega
    rw [big_small hr, if_pos hi]
    have ht := negO_strip hr
    unfold negO subO at ht
    unfold negate subFlag
    dsimp only
    by_cases hw : InWord ((0 : Word).toInt - (strip (tag a)).toInt)
    · rw [if_pos hw] at ht
      have hra : InRange (-a) := by
        by_cases h : InRange (-a)
        · exact h
        · rw [if_neg h] at ht; cases ht
      rw [if_pos hra] at ht
      injection ht with ht
      have := inWord_of_inRange hra
      rw [if_neg (by simpa using hw), big_small hra, ht, insert_eq_tag hra (toInt_ofInt ((inWord4_iff _).2 hra))]
    · rw [if_neg hw] at ht
      have hra : ¬ InRange (-a) := by
        intro h
        rw [if_pos h] at ht; cases ht
      rw [if_pos (by simpa using hw), big_double hra]
      exact negate_small hr
  · rw [big_double hr]
    show ((negateWords (lowOf a) (highOf a)).bind fun r => interpret r.1 r.2) = _
    rw [negateWords_eq, sval_of ha]
    by_cases hc : In128 (-a)
    · rw [if_pos hc, if_pos hc]
      show interpret _ _ = _
      rw [interpret_of (sval_of hc)]
    · rw [if_neg hc, if_neg hc]; rfl

theorem absolute_eq {a : Int} (ha : In128 a) : absolute (big a) = if In128 |a| then .ok (big |a|) else .overflow := by
  by_cases hr : InRange a
  · have hi : In128 |a| := by
      obtain ⟨a1, a2⟩ := hr
      rcases abs_cases a with ⟨h, _⟩ | ⟨h, _⟩ <;> rw [h] <;> constructor <;> omega
    rw [big_small hr, if_pos hi]
    have ht := negO_strip hr
    unfold negO subO at ht
    unfold absolute subFlag
    dsimp only
    have hs := toInt_strip_tag hr
    by_cases hw : InWord ((0 : Word).toInt - (strip (tag a)).toInt)
    · rw [if_pos hw] at ht
      have hra : InRange (-a) := by
        by_cases h : InRange (-a)
        · exact h
        · rw [if_neg h] at ht; cases ht
      rw [if_pos hra] at ht
      injection ht with ht
      rw [if_neg (by simpa using hw), slt_zero, hs]
      by_cases h0 : a < 0
      · rw [abs_of_neg h0, if_pos (by simpa using (show 4 * a < 0 by omega)), big_small hra, ht, insert_eq_tag hra (toInt_ofInt ((inWord4_iff _).2 hra))]
      · rw [abs_of_nonneg (by omega), if_neg (by simpa using (show ¬ 4 * a < 0 by omega)), big_small hr, insert_eq_tag hr hs]
    · rw [if_neg hw] at ht
      have hra : ¬ InRange (-a) := by
        intro h
        rw [if_pos h] at ht; cases ht
      have hneg : a < 0 := by
        obtain ⟨a1, a2⟩ := hr
        by_cases h : a < 0
        · exact h
        · exact absurd (by constructor <;> omega) hra
      rw [if_pos (by simpa using hw), abs_of_neg hneg, big_double hra]
      exact negate_small hr
  · have hneg := isNegative_big ha
    rw [big_double hr] at hneg ⊢
    unfold absolute
    dsimp only
    rw [hneg]
    by_cases h0 : a < 0
    · rw [if_pos (by simpa using h0), abs_of_neg h0]
      show ((negateWords (lowOf a) (highOf a)).bind fun r => interpret r.1 r.2) = _
      rw [negateWords_eq, sval_of ha]
      by_cases hc : In128 (-a)
      · rw [if_pos hc, if_pos hc]
        show interpret _ _ = _
        rw [interpret_of (sval_of hc)]
      · rw [if_neg hc, if_neg hc]; rfl
    · rw [if_neg (by simpa using h0), abs_of_nonneg (by omega), if_pos ha, big_double hr]

end Verif.BigInt
