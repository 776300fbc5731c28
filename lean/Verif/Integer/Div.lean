import Verif.Integer.Bits
/-
Helper lemmas about the division primitives.
-/
namespace Verif.Integer

theorem tdiv_facts (X Y : Int) (hY : Y ≠ 0) (hX : InWord X) :
    X = X.tdiv Y * Y + X.tmod Y ∧ (0 < Y → -Y < X.tmod Y ∧ X.tmod Y < Y) ∧
      (Y < 0 → Y < X.tmod Y ∧ X.tmod Y < -Y) ∧
      (X.tmod Y ≠ 0 ∨ 2 ≤ Y ∨ Y ≤ -2 → -2 ^ 62 ≤ X.tdiv Y ∧ X.tdiv Y ≤ 2 ^ 62) := by
  have h2 : ((X.tmod Y).natAbs : Int) < Y.natAbs := by
    rw [Int.natAbs_tmod]; exact_mod_cast Nat.mod_lt _ (by omega)
  have h6 : 2 ≤ Y.natAbs → 2 * ((X.tdiv Y).natAbs) ≤ X.natAbs := by
    intro h
    rw [Int.natAbs_tdiv]
    have : X.natAbs.div Y.natAbs ≤ X.natAbs / 2 := Nat.div_le_div_left h (by norm_num)
    omega
  obtain ⟨b1, b2⟩ := hX
  generalize hD : X.tdiv Y = D at *
  generalize hR : X.tmod Y = R at *
  refine ⟨?_, ?_, ?_, ?_⟩
  · have := Int.mul_tdiv_add_tmod X Y; rw [hD, hR] at this; linarith [mul_comm Y D]
  · omega
  · omega
  · intro h
    have := h6 (by omega)
    constructor <;> omega

/-- Both division instructions succeed. -/
theorem sdiv_srem {x y : Word} (hy : y ≠ 0) (hm : ¬ (x = BitVec.intMin 64 ∧ y = -1)) :
    sdiv x y = .ok (x.sdiv y) ∧ srem x y = .ok (x.srem y) ∧
      (x.sdiv y).toInt = x.toInt.tdiv y.toInt ∧ (x.srem y).toInt = x.toInt.tmod y.toInt := by
  refine ⟨by rw [sdiv, if_neg hy, if_neg hm], by rw [srem, if_neg hy, if_neg hm], ?_,
    BitVec.toInt_srem _ _⟩
  apply BitVec.toInt_sdiv_of_ne_or_ne
  by_contra h
  push Not at h
  exact hm ⟨h.1, h.2⟩

theorem toInt_ne_zero {y : Word} (hy : y ≠ 0) : y.toInt ≠ 0 := by
  intro h
  apply hy
  apply BitVec.eq_of_toInt_eq
  rw [h]; rfl

theorem eq_zero_iff_toInt (x : Word) : x = 0 ↔ x.toInt = 0 := by
  constructor
  · rintro rfl; rfl
  · intro h; by_contra hn; exact toInt_ne_zero hn h

theorem decrease_ok {d r y : Word} (h1 : InWord (d.toInt - 1)) (h2 : InWord (r.toInt + y.toInt)) :
    ∃ q m, decrease d r y = .ok (q, m) ∧ q.toInt = d.toInt - 1 ∧ m.toInt = r.toInt + y.toInt := by
  have h1' : InWord (d.toInt + (-1 : Word).toInt) := by rw [toInt_negone]; exact h1
  refine ⟨d + -1, r + y, ?_, ?_, toInt_add h2⟩
  · rw [decrease, addNsw, if_pos h1', bind_ok, addNsw, if_pos h2, bind_ok]
  · rw [toInt_add h1', toInt_negone]; ring

theorem increase_ok {d r y : Word} (h1 : InWord (d.toInt + 1)) (h2 : InWord (r.toInt - y.toInt)) :
    ∃ q m, increase d r y = .ok (q, m) ∧ q.toInt = d.toInt + 1 ∧ m.toInt = r.toInt - y.toInt := by
  have h1' : InWord (d.toInt + (1 : Word).toInt) := by rw [toInt_one]; exact h1
  refine ⟨d + 1, r - y, ?_, ?_, toInt_sub h2⟩
  · rw [increase, addNsw, if_pos h1', bind_ok, subNsw, if_pos h2, bind_ok]
  · rw [toInt_add h1', toInt_one]

theorem slt_zero (x : Word) : x.slt 0 = decide (x.toInt < 0) := rfl
theorem zero_slt (x : Word) : (0 : Word).slt x = decide (0 < x.toInt) := rfl

theorem floorW_spec {x y : Word} (hy : y ≠ 0) (hm : ¬ (x = BitVec.intMin 64 ∧ y = -1)) :
    ∃ q r, floorW x y = .ok (q, r) ∧ x.toInt = q.toInt * y.toInt + r.toInt ∧
      (0 < y.toInt → 0 ≤ r.toInt ∧ r.toInt < y.toInt) ∧
      (y.toInt < 0 → y.toInt < r.toInt ∧ r.toInt ≤ 0) := by
  obtain ⟨e1, e2, e3, e4⟩ := sdiv_srem hy hm
  have hY := toInt_ne_zero hy
  obtain ⟨f1, f2, f3, f4⟩ := tdiv_facts x.toInt y.toInt hY (inWord_toInt x)
  rw [← e3, ← e4] at *
  obtain ⟨by1, by2⟩ := inWord_toInt y
  rw [floorW, e1, bind_ok, e2, bind_ok]
  generalize x.sdiv y = d at *
  generalize x.srem y = r at *
  rw [floorAdjust]
  by_cases hr : r = 0
  · rw [if_pos hr]
    have hr0 := (eq_zero_iff_toInt r).mp hr
    refine ⟨d, 0, rfl, by rw [toInt_zero']; omega, ?_, ?_⟩ <;> intro h <;> rw [toInt_zero'] <;> omega
  · rw [if_neg hr, slt_zero, slt_zero, zero_slt]
    have hr0 : r.toInt ≠ 0 := toInt_ne_zero hr
    have h2 := f4 (Or.inl hr0)
    have hd : InWord (d.toInt - 1) := by constructor <;> omega
    by_cases hneg : y.toInt < 0
    · simp only [hneg, decide_true, if_true]
      by_cases hrp : 0 < r.toInt
      · simp only [hrp, decide_true, if_true]
        obtain ⟨q, m, e, eq, em⟩ := decrease_ok hd (r := r) (y := y) (by constructor <;> omega)
        refine ⟨q, m, e, ?_, ?_, ?_⟩
        · rw [eq, em, sub_mul]; omega
        · intro h; first | exact h.elim | omega
        · intro h; first | exact h.elim | omega
      · simp only [hrp, decide_false]
        refine ⟨d, r, rfl, f1, ?_, ?_⟩ <;> intro h <;> first | exact h.elim | omega
    · simp only [hneg, decide_false]
      by_cases hrn : r.toInt < 0
      · simp only [hrn, decide_true, if_true]
        obtain ⟨q, m, e, eq, em⟩ := decrease_ok hd (r := r) (y := y) (by constructor <;> omega)
        refine ⟨q, m, e, ?_, ?_, ?_⟩
        · rw [eq, em, sub_mul]; omega
        · intro h; first | exact h.elim | omega
        · intro h; first | exact h.elim | omega
      · simp only [hrn, decide_false]
        refine ⟨d, r, rfl, f1, ?_, ?_⟩ <;> intro h <;> first | exact h.elim | omega

theorem ceilingW_spec {x y : Word} (hy : y ≠ 0) (hm : ¬ (x = BitVec.intMin 64 ∧ y = -1)) :
    ∃ q r, ceilingW x y = .ok (q, r) ∧ x.toInt = q.toInt * y.toInt + r.toInt ∧
      (0 < y.toInt → -y.toInt < r.toInt ∧ r.toInt ≤ 0) ∧
      (y.toInt < 0 → 0 ≤ r.toInt ∧ r.toInt < -y.toInt) := by
  obtain ⟨e1, e2, e3, e4⟩ := sdiv_srem hy hm
  have hY := toInt_ne_zero hy
  obtain ⟨f1, f2, f3, f4⟩ := tdiv_facts x.toInt y.toInt hY (inWord_toInt x)
  rw [← e3, ← e4] at *
  obtain ⟨by1, by2⟩ := inWord_toInt y
  rw [ceilingW, e1, bind_ok, e2, bind_ok]
  generalize x.sdiv y = d at *
  generalize x.srem y = r at *
  rw [ceilingAdjust]
  by_cases hr : r = 0
  · rw [if_pos hr]
    have hr0 := (eq_zero_iff_toInt r).mp hr
    refine ⟨d, 0, rfl, by rw [toInt_zero']; omega, ?_, ?_⟩ <;> intro h <;> rw [toInt_zero'] <;> omega
  · rw [if_neg hr, slt_zero, slt_zero, zero_slt]
    have hr0 : r.toInt ≠ 0 := toInt_ne_zero hr
    have h2 := f4 (Or.inl hr0)
    have hd : InWord (d.toInt + 1) := by constructor <;> omega
    by_cases hneg : y.toInt < 0
    · simp only [hneg, decide_true, if_true]
      by_cases hrp : r.toInt < 0
      · simp only [hrp, decide_true, if_true]
        obtain ⟨q, m, e, eq, em⟩ := increase_ok hd (r := r) (y := y) (by constructor <;> omega)
        refine ⟨q, m, e, ?_, ?_, ?_⟩
        · rw [eq, em, add_mul]; omega
        · intro h; first | exact h.elim | omega
        · intro h; first | exact h.elim | omega
      · simp only [hrp, decide_false]
        refine ⟨d, r, rfl, f1, ?_, ?_⟩ <;> intro h <;> first | exact h.elim | omega
    · simp only [hneg, decide_false]
      by_cases hrn : 0 < r.toInt
      · simp only [hrn, decide_true, if_true]
        obtain ⟨q, m, e, eq, em⟩ := increase_ok hd (r := r) (y := y) (by constructor <;> omega)
        refine ⟨q, m, e, ?_, ?_, ?_⟩
        · rw [eq, em, add_mul]; omega
        · intro h; first | exact h.elim | omega
        · intro h; first | exact h.elim | omega
      · simp only [hrn, decide_false]
        refine ⟨d, r, rfl, f1, ?_, ?_⟩ <;> intro h <;> first | exact h.elim | omega

theorem truncateW_spec {x y : Word} (hy : y ≠ 0) (hm : ¬ (x = BitVec.intMin 64 ∧ y = -1)) :
    ∃ q r, truncateW x y = .ok (q, r) ∧ q.toInt = x.toInt.tdiv y.toInt ∧
      r.toInt = x.toInt.tmod y.toInt := by
  obtain ⟨e1, e2, e3, e4⟩ := sdiv_srem hy hm
  exact ⟨_, _, by rw [truncateW, e1, bind_ok, e2, bind_ok], e3, e4⟩

theorem and_one (d : Word) : (d &&& 1 == 0) = decide (d.toInt % 2 = 0) := by
  have h := and_shl_one d 0 (by norm_num)
  rw [show (1 : Word) <<< 0 = 1 by decide, getLsbD_bit _ (by norm_num)] at h
  unfold bit at h
  rw [pow_zero, Int.ediv_one] at h
  have h2 : (d &&& 1 == 0) = !(d &&& 1 != 0) := by simp [bne]
  rw [h2, h]
  by_cases hc : d.toInt % 2 = 0
  · simp [hc]
  · have : d.toInt % 2 = 1 := by omega
    simp [this]

/-- Adjusting by one step, the facts used for `round/`. -/
theorem round_pure {X Y D R : Int} (f1 : X = D * Y + R) (f2 : 0 < Y → -Y < R ∧ R < Y)
    (f3 : Y < 0 → Y < R ∧ R < -Y) (f4 : R ≠ 0 ∨ 2 ≤ Y ∨ Y ≤ -2 → -2 ^ 62 ≤ D ∧ D ≤ 2 ^ 62)
    (hover : 2 ≤ Y ∨ Y ≤ -2 ∨ X % 2 = 0 ∨ (-2 ^ 62 < X ∧ X < 2 ^ 62)) (hY : Y ≠ 0)
    (hYw : InWord Y)
    (hc : (Y.natAbs : Int) / 2 < R.natAbs ∨ ((R.natAbs : Int) = (Y.natAbs : Int) / 2 ∧ D % 2 = 1)) :
    InWord (D + 1) ∧ InWord (D - 1) ∧
      (0 < Y ∧ 0 ≤ R ∨ Y < 0 ∧ R ≤ 0 →
        InWord (R - Y) ∧ X = (D + 1) * Y + (R - Y) ∧
          ((R - Y).natAbs : Int) = Y.natAbs - R.natAbs) ∧
      (0 < Y ∧ R ≤ 0 ∨ Y < 0 ∧ 0 ≤ R →
        InWord (R + Y) ∧ X = (D - 1) * Y + (R + Y) ∧
          ((R + Y).natAbs : Int) = Y.natAbs - R.natAbs) := by
  obtain ⟨y1, y2⟩ := hYw
  have hD : -2 ^ 62 ≤ D ∧ D ≤ 2 ^ 62 := by
    by_cases h : R ≠ 0 ∨ 2 ≤ Y ∨ Y ≤ -2
    · exact f4 h
    · push Not at h
      have hR0 : R = 0 := h.1
      have : Y = 1 ∨ Y = -1 := by omega
      rcases this with h | h <;> subst h <;> omega
  refine ⟨by constructor <;> omega, by constructor <;> omega, fun h => ⟨?_, ?_, ?_⟩,
    fun h => ⟨?_, ?_, ?_⟩⟩
  · constructor <;> omega
  · rw [add_mul]; omega
  · omega
  · constructor <;> omega
  · rw [sub_mul]; omega
  · omega

/-- What `round/` returns: the truncated quotient and remainder, moved one step
when the remainder is beyond, or at with an odd quotient, the threshold
`|y| / 2` rounded down. -/
theorem roundW_spec {x y : Word} (hy : y ≠ 0) (hym : y ≠ BitVec.intMin 64)
    (hm : ¬ (x = BitVec.intMin 64 ∧ y = -1)) {X Y D R : Int} (hX : x.toInt = X) (hYe : y.toInt = Y)
    (hD : X.tdiv Y = D) (hR : X.tmod Y = R)
    (hover : 2 ≤ Y ∨ Y ≤ -2 ∨ X % 2 = 0 ∨ (-2 ^ 62 < X ∧ X < 2 ^ 62)) :
    ∃ q r, roundW x y = .ok (q, r) ∧ X = q.toInt * Y + r.toInt ∧
      ((q.toInt = D ∧ r.toInt = R ∧
          ((R.natAbs : Int) < (Y.natAbs : Int) / 2 ∨
           ((R.natAbs : Int) = (Y.natAbs : Int) / 2 ∧ D % 2 = 0))) ∨
       ((q.toInt - D = 1 ∨ q.toInt - D = -1) ∧
          (r.toInt.natAbs : Int) = Y.natAbs - R.natAbs ∧
          ((Y.natAbs : Int) / 2 < R.natAbs ∨
           ((R.natAbs : Int) = (Y.natAbs : Int) / 2 ∧ D % 2 = 1)))) := by
  obtain ⟨e1, e2, e3, e4⟩ := sdiv_srem hy hm
  have hY := toInt_ne_zero hy
  obtain ⟨f1, f2, f3, f4⟩ := tdiv_facts x.toInt y.toInt hY (inWord_toInt x)
  have hYw := inWord_toInt y
  have hymin : y.toInt ≠ -2 ^ 63 := by
    intro h; apply hym; apply BitVec.eq_of_toInt_eq; rw [h]; decide
  rw [roundW, e1, bind_ok, e2, bind_ok]
  generalize x.sdiv y = d at *
  generalize x.srem y = r at *
  rw [hX, hYe] at f1 f2 f3 f4 e3 e4
  rw [hD] at f1 f4 e3
  rw [hR] at f1 f2 f3 f4 e4
  rw [hYe] at hY hYw hymin
  have habs : ∃ ad : Word, (if y.slt 0 = true then subNsw 0 y else Out.ok y) = .ok ad ∧
      ad.toInt = Y.natAbs := by
    obtain ⟨y1, y2⟩ := hYw
    rw [slt_zero, hYe]
    by_cases hneg : Y < 0
    · have hw : InWord ((0 : Word).toInt - y.toInt) := by
        rw [toInt_zero', hYe]; constructor <;> omega
      refine ⟨0 - y, ?_, ?_⟩
      · simp only [hneg, decide_true, if_true]
        rw [subNsw, if_pos hw]
      · rw [toInt_sub hw, toInt_zero', hYe]; omega
    · exact ⟨y, by simp [hneg], by omega⟩
  obtain ⟨ad, ead, had⟩ := habs
  have hT : (ad.sdiv 2).toInt = (Y.natAbs : Int) / 2 := by
    rw [BitVec.toInt_sdiv_of_ne_or_ne _ _ (Or.inr (by decide)), had,
      show (2 : Word).toInt = 2 by decide, Int.tdiv_eq_ediv_of_nonneg (by omega)]
  rw [roundAdjust, ead, bind_ok]
  generalize ad.sdiv 2 = T at *
  have hTn : (0 - T).toInt = -((Y.natAbs : Int) / 2) := by
    obtain ⟨y1, y2⟩ := hYw
    rw [toInt_sub] <;> rw [toInt_zero', hT]
    · ring
    · constructor <;> omega
  simp only [and_one, slt_zero]
  have hbeq : ∀ u v : Word, (u == v) = decide (u.toInt = v.toInt) := by
    intro u v
    rw [Bool.eq_iff_iff]
    simp [BitVec.toInt_inj]
  have hslt : ∀ u v : Word, u.slt v = decide (u.toInt < v.toInt) := fun _ _ => rfl
  simp only [hbeq, hslt, hT, hTn, e3, e4, hYe, toInt_zero']
  have inc : ∀ hc : (Y.natAbs : Int) / 2 < R.natAbs ∨
      ((R.natAbs : Int) = (Y.natAbs : Int) / 2 ∧ D % 2 = 1),
      (0 < Y ∧ 0 ≤ R ∨ Y < 0 ∧ R ≤ 0) → ∃ q m, increase d r y = .ok (q, m) ∧
        X = q.toInt * Y + m.toInt ∧
        ((q.toInt = D ∧ m.toInt = R ∧ ((R.natAbs : Int) < (Y.natAbs : Int) / 2 ∨
           ((R.natAbs : Int) = (Y.natAbs : Int) / 2 ∧ D % 2 = 0))) ∨
         ((q.toInt - D = 1 ∨ q.toInt - D = -1) ∧
          (m.toInt.natAbs : Int) = Y.natAbs - R.natAbs ∧
          ((Y.natAbs : Int) / 2 < R.natAbs ∨
           ((R.natAbs : Int) = (Y.natAbs : Int) / 2 ∧ D % 2 = 1)))) := by
    intro hc hs
    obtain ⟨g1, _, g3, _⟩ := round_pure f1 f2 f3 f4 hover hY hYw hc
    obtain ⟨g4, g5, g6⟩ := g3 hs
    obtain ⟨q, m, e, eq, em⟩ := increase_ok (d := d) (r := r) (y := y)
      (by rw [e3]; exact g1) (by rw [e4, hYe]; exact g4)
    rw [e3] at eq
    rw [e4, hYe] at em
    refine ⟨q, m, e, by rw [eq, em]; exact g5, Or.inr ⟨Or.inl (by rw [eq]; ring), ?_, hc⟩⟩
    rw [em]; exact g6
  have dec : ∀ hc : (Y.natAbs : Int) / 2 < R.natAbs ∨
      ((R.natAbs : Int) = (Y.natAbs : Int) / 2 ∧ D % 2 = 1),
      (0 < Y ∧ R ≤ 0 ∨ Y < 0 ∧ 0 ≤ R) → ∃ q m, decrease d r y = .ok (q, m) ∧
        X = q.toInt * Y + m.toInt ∧
        ((q.toInt = D ∧ m.toInt = R ∧ ((R.natAbs : Int) < (Y.natAbs : Int) / 2 ∨
           ((R.natAbs : Int) = (Y.natAbs : Int) / 2 ∧ D % 2 = 0))) ∨
         ((q.toInt - D = 1 ∨ q.toInt - D = -1) ∧
          (m.toInt.natAbs : Int) = Y.natAbs - R.natAbs ∧
          ((Y.natAbs : Int) / 2 < R.natAbs ∨
           ((R.natAbs : Int) = (Y.natAbs : Int) / 2 ∧ D % 2 = 1)))) := by
    intro hc hs
    obtain ⟨_, g1, _, g3⟩ := round_pure f1 f2 f3 f4 hover hY hYw hc
    obtain ⟨g4, g5, g6⟩ := g3 hs
    obtain ⟨q, m, e, eq, em⟩ := decrease_ok (d := d) (r := r) (y := y)
      (by rw [e3]; exact g1) (by rw [e4, hYe]; exact g4)
    rw [e3] at eq
    rw [e4, hYe] at em
    refine ⟨q, m, e, by rw [eq, em]; exact g5, Or.inr ⟨Or.inr (by rw [eq]; ring), ?_, hc⟩⟩
    rw [em]; exact g6
  have c1iff : (decide ((Y.natAbs : Int) / 2 < R) ||
      decide (R = (Y.natAbs : Int) / 2) && !decide (D % 2 = 0)) =
      decide ((Y.natAbs : Int) / 2 < R ∨ (R = (Y.natAbs : Int) / 2 ∧ D % 2 = 1)) := by
    rcases Int.emod_two_eq D with h | h <;> simp [h, Bool.decide_or]
  have c2iff : (decide (R < -((Y.natAbs : Int) / 2)) ||
      decide (R = -((Y.natAbs : Int) / 2)) && !decide (D % 2 = 0)) =
      decide (R < -((Y.natAbs : Int) / 2) ∨ (R = -((Y.natAbs : Int) / 2) ∧ D % 2 = 1)) := by
    rcases Int.emod_two_eq D with h | h <;> simp [h, Bool.decide_or]
  rw [c1iff, c2iff]
  have hTpos : 0 ≤ (Y.natAbs : Int) / 2 := Int.ediv_nonneg (Int.natCast_nonneg _) (by norm_num)
  by_cases c1 : (Y.natAbs : Int) / 2 < R ∨ (R = (Y.natAbs : Int) / 2 ∧ D % 2 = 1)
  · rw [if_pos (by simpa using c1)]
    have hR0 : 0 ≤ R := by clear inc dec; omega
    have hc : (Y.natAbs : Int) / 2 < R.natAbs ∨
      ((R.natAbs : Int) = (Y.natAbs : Int) / 2 ∧ D % 2 = 1) := by clear inc dec; omega
    by_cases hneg : Y < 0
    · simp only [hneg, decide_true, if_true]
      exact dec hc (Or.inr ⟨hneg, hR0⟩)
    · simp only [hneg, decide_false, Bool.false_eq_true, if_false]
      exact inc hc (Or.inl ⟨lt_of_le_of_ne (not_lt.mp hneg) (Ne.symm hY), hR0⟩)
  · rw [if_neg (by simpa using c1)]
    by_cases c2 : R < -((Y.natAbs : Int) / 2) ∨ (R = -((Y.natAbs : Int) / 2) ∧ D % 2 = 1)
    · rw [if_pos (by simpa using c2)]
      have hR0 : R ≤ 0 := by clear inc dec; omega
      have hc : (Y.natAbs : Int) / 2 < R.natAbs ∨
        ((R.natAbs : Int) = (Y.natAbs : Int) / 2 ∧ D % 2 = 1) := by clear inc dec; omega
      by_cases hneg : Y < 0
      · simp only [hneg, decide_true, if_true]
        exact inc hc (Or.inr ⟨hneg, hR0⟩)
      · simp only [hneg, decide_false, Bool.false_eq_true, if_false]
        exact dec hc (Or.inl ⟨lt_of_le_of_ne (not_lt.mp hneg) (Ne.symm hY), hR0⟩)
    · rw [if_neg (by simpa using c2)]
      refine ⟨d, r, rfl, by rw [e3, e4]; exact f1, Or.inl ⟨e3, e4, ?_⟩⟩
      clear inc dec
      omega

end Verif.Integer
