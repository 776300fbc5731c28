/-
C114: packed source locations.
-/
import Verif.Reader.Offsets

namespace Verif.Reader

/-! ### Words and numbers -/

theorem toNat_ofInt_nat (n : Nat) (h : n < 2 ^ 64) : (BitVec.ofInt 64 n).toNat = n := by
  rw [BitVec.toNat_ofInt]; omega

theorem or_add (a b i : Nat) (h : b < 2 ^ i) : a <<< i ||| b = a * 2 ^ i + b := by
  rw [← Nat.shiftLeft_add_eq_or_of_lt h, Nat.shiftLeft_eq]

theorem toInt_small (w : BitVec 64) (h : w.toNat < 2 ^ 63) : w.toInt = w.toNat := by
  rw [BitVec.toInt_eq_toNat_cond, if_pos (by omega)]

theorem sshiftRight_small (w : BitVec 64) (i : Nat) (h : w.toNat < 2 ^ 63) :
    (w.sshiftRight i).toNat = w.toNat / 2 ^ i := by
  have hm : w.msb = false := by rw [BitVec.msb_eq_false_iff_two_mul_lt]; omega
  rw [BitVec.toNat_sshiftRight_of_msb_false hm, Nat.shiftRight_eq_div_pow]

theorem smallOffset_toNat (l c : Nat) (hl : l ≤ 65535) (hc : c ≤ 4095) :
    (smallOffset l c).toNat = l * 4096 + c := by
  unfold smallOffset
  rw [BitVec.toNat_or, BitVec.toNat_shiftLeft, toNat_ofInt_nat l (by omega), toNat_ofInt_nat c (by omega),
    Nat.mod_eq_of_lt (by rw [Nat.shiftLeft_eq]; omega), or_add _ _ 12 (by omega)]

theorem field_toNat (w : BitVec 64) (i k : Nat) (h : w.toNat < 2 ^ 63) (hk : k ≤ 16) :
    (field w i (BitVec.ofNat 64 (2 ^ k - 1))).toInt = (w.toNat / 2 ^ i % 2 ^ k : Nat) := by
  have hp : 2 ^ k ≤ 2 ^ 16 := Nat.pow_le_pow_right (by omega) hk
  have hp0 : 0 < 2 ^ k := Nat.pow_pos (by omega)
  have e : (field w i (BitVec.ofNat 64 (2 ^ k - 1))).toNat = w.toNat / 2 ^ i % 2 ^ k := by
    unfold field
    rw [BitVec.toNat_and, sshiftRight_small w i h, BitVec.toNat_ofNat, Nat.mod_eq_of_lt (by omega),
      Nat.and_two_pow_sub_one_eq_mod]
  rw [toInt_small _ (by rw [e]; have := Nat.mod_lt (w.toNat / 2 ^ i) hp0; omega), e]

theorem small_line (l c : Nat) (hl : l ≤ 65535) (hc : c ≤ 4095) :
    (Offset.small (smallOffset l c)).line = l := by
  have e : (smallOffset l c &&& (65535#64 <<< 12)).toNat = l * 4096 := by
    rw [BitVec.toNat_and, smallOffset_toNat l c hl hc]
    have h1 : (65535#64 <<< 12).toNat = 65535 <<< 12 := by decide
    rw [h1, ← or_add l c 12 (by omega), Nat.and_or_distrib_right, ← Nat.shiftLeft_and_distrib]
    have h2 : l &&& 65535 = l := by
      rw [show 65535 = 2 ^ 16 - 1 from rfl, Nat.and_two_pow_sub_one_eq_mod]; omega
    have h3 : c &&& 65535 <<< 12 = 0 := by
      have := Nat.and_two_pow_sub_one_eq_mod c 12
      rw [Nat.mod_eq_of_lt (by omega)] at this
      rw [← this, Nat.and_assoc, show (2 ^ 12 - 1) &&& 65535 <<< 12 = 0 from by decide, Nat.and_zero]
    rw [h2, h3, Nat.or_zero, Nat.shiftLeft_eq]
  show ((smallOffset l c &&& (65535#64 <<< 12)).sshiftRight 12).toInt = l
  rw [toInt_small, sshiftRight_small, e]
  · omega
  · rw [e]; omega
  · rw [sshiftRight_small _ _ (by rw [e]; omega), e]; omega

theorem small_column (l c : Nat) (hl : l ≤ 65535) (hc : c ≤ 4095) :
    (Offset.small (smallOffset l c)).column = c := by
  have e : (smallOffset l c &&& 4095#64).toNat = c := by
    rw [BitVec.toNat_and, smallOffset_toNat l c hl hc, show (4095#64).toNat = 2 ^ 12 - 1 from by decide,
      Nat.and_two_pow_sub_one_eq_mod]
    omega
  show (smallOffset l c &&& 4095#64).toInt = c
  rw [toInt_small _ (by rw [e]; omega), e]

/-! ### Offsets -/

/-- **C114** The line and the column of a source offset are those that it was made of. -/
theorem offset_round_trip (line column : Nat) :
    (makeOffset line column).line = line ∧ (makeOffset line column).column = column := by
  unfold makeOffset
  split
  · next h => exact ⟨small_line line column (by omega) (by omega), small_column line column (by omega) (by omega)⟩
  · exact ⟨rfl, rfl⟩

example : makeOffset 3 7 = .small 12295#64 ∧ makeOffset 70000 7 = .big 70000 7 := by decide

/-- **C114** Source offsets are ordered, and equal, as the lines and then the columns are that they were
    made of. -/
theorem offset_order (l c l' c' : Nat) :
    ((makeOffset l c).less (makeOffset l' c') = true ↔ l < l' ∨ (l = l' ∧ c < c')) ∧
    ((makeOffset l c).equal (makeOffset l' c') = true ↔ l = l' ∧ c = c') ∧
    ((makeOffset l c).greater (makeOffset l' c') = true ↔ l' < l ∨ (l' = l ∧ c' < c)) := by
  have r1 := offset_round_trip l c
  have r2 := offset_round_trip l' c'
  unfold makeOffset at r1 r2 ⊢
  split at r1 <;> split at r2 <;> rename_i h h'
  · rw [if_pos h, if_pos h']
    have e1 := smallOffset_toNat l c (by omega) (by omega)
    have e2 := smallOffset_toNat l' c' (by omega) (by omega)
    have t1 := toInt_small (smallOffset l c) (by omega)
    have t2 := toInt_small (smallOffset l' c') (by omega)
    simp only [Offset.less, Offset.equal, Offset.greater, decide_eq_true_eq, t1, t2, e1, e2]
    refine ⟨by omega, ?_, by omega⟩
    rw [← BitVec.toNat_inj, e1, e2]; omega
  · rw [if_pos h, if_neg h']
    simp only [Offset.less, Offset.equal, Offset.greater, decide_eq_true_eq, Bool.or_eq_true, Bool.and_eq_true,
      r1.1, r1.2]
    simp only [Offset.line, Offset.column]
    refine ⟨by omega, ?_, by omega⟩
    simp; omega
  · rw [if_neg h, if_pos h']
    simp only [Offset.less, Offset.equal, Offset.greater, decide_eq_true_eq, Bool.or_eq_true, Bool.and_eq_true,
      r2.1, r2.2]
    simp only [Offset.line, Offset.column]
    refine ⟨by omega, ?_, by omega⟩
    simp; omega
  · rw [if_neg h, if_neg h']
    simp only [Offset.less, Offset.equal, Offset.greater, decide_eq_true_eq, Bool.or_eq_true, Bool.and_eq_true,
      Offset.line, Offset.column]
    refine ⟨by omega, by omega, ?_⟩
    constructor
    · rintro (hx | ⟨hx, hy⟩)
      · have := of_decide_eq_true hx; omega
      · have := of_decide_eq_true hx; have := of_decide_eq_true hy; omega
    · rintro (hx | ⟨hx, hy⟩)
      · exact Or.inl (decide_eq_true (by omega))
      · exact Or.inr ⟨decide_eq_true (by omega), decide_eq_true (by omega)⟩

/-! ### Positions -/

theorem packPosition_toNat (sl dl sc dc : Nat) (h1 : sl ≤ 2047) (h2 : dl ≤ 7) (h3 : sc ≤ 127) (h4 : dc ≤ 127) :
    (packPosition sl dl sc dc).toNat = dl * 2 ^ 25 + (dc * 2 ^ 18 + (sl * 2 ^ 7 + sc)) := by
  unfold packPosition
  rw [BitVec.toNat_or, BitVec.toNat_or, BitVec.toNat_or, BitVec.toNat_shiftLeft, BitVec.toNat_shiftLeft,
    BitVec.toNat_shiftLeft, toNat_ofInt_nat sl (by omega), toNat_ofInt_nat dl (by omega),
    toNat_ofInt_nat sc (by omega), toNat_ofInt_nat dc (by omega),
    Nat.mod_eq_of_lt (by rw [Nat.shiftLeft_eq]; omega), Nat.mod_eq_of_lt (by rw [Nat.shiftLeft_eq]; omega),
    Nat.mod_eq_of_lt (by rw [Nat.shiftLeft_eq]; omega)]
  rw [← or_add sl sc 7 (by omega), ← or_add dc _ 18 (by rw [or_add _ _ _ (by omega)]; omega),
    ← or_add dl _ 25 (by rw [or_add sl sc 7 (by omega), or_add _ _ _ (by omega)]; omega)]
  generalize dl <<< 25 = a
  generalize dc <<< 18 = b
  generalize sl <<< 7 = c
  rw [Nat.or_comm c a, Nat.or_assoc a, Nat.or_assoc a, Nat.or_comm (c ||| sc) b]

theorem fields (sl dl sc dc : Nat) (h1 : sl ≤ 2047) (h2 : dl ≤ 7) (h3 : sc ≤ 127) (h4 : dc ≤ 127) :
    let n := dl * 2 ^ 25 + (dc * 2 ^ 18 + (sl * 2 ^ 7 + sc))
    n / 2 ^ 7 % 2 ^ 11 = sl ∧ n / 2 ^ 0 % 2 ^ 7 = sc ∧ n / 2 ^ 25 % 2 ^ 3 = dl ∧ n / 2 ^ 18 % 2 ^ 7 = dc := by
  intro n
  refine ⟨by omega, by omega, ?_, by omega⟩
  have : n / 2 ^ 25 = dl := by omega
  rw [this]; omega

/-- **C114** A position gives back the start and the end that it was made of, if the end is not before the
    start. -/
theorem position_round_trip (sl sc el ec : Nat) (h : sl < el ∨ (sl = el ∧ sc ≤ ec)) :
    let p := makePosition (makeOffset sl sc) (makeOffset el ec)
    p.start = makeOffset sl sc ∧ p.finish = makeOffset el ec := by
  intro p
  have r1 := offset_round_trip sl sc
  have r2 := offset_round_trip el ec
  by_cases hs : (sc : Int) ≤ 4095 ∧ (sl : Int) ≤ 65535
  · by_cases he : (ec : Int) ≤ 4095 ∧ (el : Int) ≤ 65535
    · have o1 : makeOffset sl sc = .small (smallOffset sl sc) := if_pos hs
      have o2 : makeOffset el ec = .small (smallOffset el ec) := if_pos he
      rw [o1] at r1; rw [o2] at r2
      have hp : p = makePosition (.small (smallOffset sl sc)) (.small (smallOffset el ec)) := by
        show makePosition _ _ = _
        rw [o1, o2]
      simp only [makePosition, r1.1, r1.2, r2.1, r2.2] at hp
      rw [o1, o2, hp]
      by_cases hc : (sl : Int) ≤ 2047 ∧ (el : Int) - sl ≤ 7 ∧ (sc : Int) ≤ 127 ∧
          (0 ≤ (if (el : Int) - sl = 0 then (ec : Int) - sc else ec) ∧
            (if (el : Int) - sl = 0 then (ec : Int) - sc else ec) ≤ 127)
      · rw [if_pos hc]
        obtain ⟨dl, hdl⟩ : ∃ dl : Nat, (el : Int) - sl = dl := ⟨el - sl, by omega⟩
        obtain ⟨dc, hdc⟩ : ∃ dc : Nat, (if (el : Int) - sl = 0 then (ec : Int) - sc else ec) = dc :=
          ⟨(if (el : Int) - sl = 0 then (ec : Int) - sc else ec).toNat, by omega⟩
        rw [hdc, hdl] at hc ⊢
        have e := packPosition_toNat sl dl sc dc (by omega) (by omega) (by omega) (by omega)
        have hw : (packPosition sl dl sc dc).toNat < 2 ^ 63 := by omega
        have f1 := field_toNat (packPosition sl dl sc dc) 7 11 hw (by omega)
        have f2 := field_toNat (packPosition sl dl sc dc) 0 7 hw (by omega)
        have f3 := field_toNat (packPosition sl dl sc dc) 25 3 hw (by omega)
        have f4 := field_toNat (packPosition sl dl sc dc) 18 7 hw (by omega)
        rw [e] at f1 f2 f3 f4
        obtain ⟨fs1, fs2, fs3, fs4⟩ := fields sl dl sc dc (by omega) (by omega) (by omega) (by omega)
        rw [fs1] at f1; rw [fs2] at f2; rw [fs3] at f3; rw [fs4] at f4
        have g1 : (field (packPosition sl dl sc dc) 7 2047#64).toInt = sl := f1
        have g2 : (field (packPosition sl dl sc dc) 0 127#64).toInt = sc := f2
        have g3 : (field (packPosition sl dl sc dc) 25 7#64).toInt = dl := f3
        have g4 : (field (packPosition sl dl sc dc) 18 127#64).toInt = dc := f4
        simp only [Position.start, Position.finish, g1, g2, g3, g4]
        refine ⟨trivial, ?_⟩
        have k1 : (sl : Int) + dl = el := by omega
        have k2 : (if (dl : Int) = 0 then (dc : Int) + sc else dc) = ec := by
          rw [← hdl, ← hdc]
          by_cases hz : (el : Int) - sl = 0
          · rw [if_pos hz, if_pos hz]; omega
          · rw [if_neg hz, if_neg hz]
        rw [k1, k2]
      · rw [if_neg hc]; exact ⟨rfl, rfl⟩
    · have o2 : makeOffset el ec = .big el ec := if_neg he
      have hp : p = .big (makeOffset sl sc) (makeOffset el ec) := by
        show makePosition _ _ = _
        rw [o2]; cases makeOffset sl sc <;> rfl
      rw [hp]; exact ⟨rfl, rfl⟩
  · have o1 : makeOffset sl sc = .big sl sc := if_neg hs
    have hp : p = .big (makeOffset sl sc) (makeOffset el ec) := by
      show makePosition _ _ = _
      rw [o1]; cases makeOffset el ec <;> rfl
    rw [hp]; exact ⟨rfl, rfl⟩

example : makePosition (makeOffset 3 7) (makeOffset 3 10) = .small 786823#64 ∧
    makePosition (makeOffset 3 7) (makeOffset 33 10) = .big (makeOffset 3 7) (makeOffset 33 10) := by decide

/-- The position of the text from one place to another. -/
def fromTo (sl sc el ec : Nat) : Position := makePosition (makeOffset sl sc) (makeOffset el ec)

/-- **C114** The position between two positions goes from the start of the first to the end of the second, or the
    other way round if the second ends before the first starts; without one of them it is the other. -/
theorem position_between (sl sc el ec sl' sc' el' ec' : Nat) (h : sl < el ∨ (sl = el ∧ sc ≤ ec))
    (h' : sl' < el' ∨ (sl' = el' ∧ sc' ≤ ec')) :
    positionBetween (some (fromTo sl sc el ec)) (some (fromTo sl' sc' el' ec')) =
        some (if el' < sl ∨ (el' = sl ∧ ec' < sc) then fromTo sl' sc' el ec else fromTo sl sc el' ec') ∧
      positionBetween none (some (fromTo sl sc el ec)) = some (fromTo sl sc el ec) ∧
      positionBetween (some (fromTo sl sc el ec)) none = some (fromTo sl sc el ec) := by
  refine ⟨?_, rfl, rfl⟩
  obtain ⟨a1, a2⟩ := position_round_trip sl sc el ec h
  obtain ⟨b1, b2⟩ := position_round_trip sl' sc' el' ec' h'
  show some (between (fromTo sl sc el ec) (fromTo sl' sc' el' ec')) = _
  unfold between fromTo
  rw [a1, a2, b1, b2]
  by_cases hg : el' < sl ∨ (el' = sl ∧ ec' < sc)
  · rw [if_pos hg, if_pos ((offset_order sl sc el' ec').2.2.2 hg)]
  · rw [if_neg hg, if_neg (fun hx => hg ((offset_order sl sc el' ec').2.2.1 hx))]

example : positionBetween (some (fromTo 5 3 5 6)) (some (fromTo 2 0 2 9)) = some (fromTo 2 0 5 6) := by decide

/-- **C114** The packed offset of column -1, where the lexer locates the end of an invalid token before a newline
    (`invalid_location_violated`), is in line 65535. -/
theorem column_before_line_violated :
    ∃ o, o = makeOffset 2 (-1) ∧ o.line = 65535 ∧ o.column = 4095 :=
  ⟨_, rfl, by decide, by decide⟩

/-- **C114** A position whose end is on an earlier line than its start is not given back. -/
theorem backward_position_violated :
    ∃ p, p = fromTo 3 5 2 9 ∧ p.finish ≠ makeOffset 2 9 :=
  ⟨_, rfl, by decide⟩

end Verif.Reader
