import Verif.MwFold.Lemmas

/-!
# Folding an operation on constant words changes nothing (C140)
-/

namespace Verif.MwFold

/-- The primitives whose folders are wrong for some operands. -/
def wrong : Prim → Bool
  | .subtractSignal | .floorQuotient | .floorRemainder => true
  | _ => false

/-- When a call with constant arguments is replaced by a constant, running the call would have returned that constant:
the same word or the same truth value, and no overflow.  This is for every primitive with a folder but the three of
`wrong`, and for all arguments, where the call is allowed at all.  What is missing is those three, see the violations
below. -/
theorem folded_partial {p : Prim} (hp : wrong p = false) {args : List Int} {r : Result} (h : fold p args = some r)
    {o : Out} (ho : run p (args.map wordOf) = some o) : outOf r = o := by
  rw [fold_eq] at h
  generalize args.map wordOf = ws at h ho
  revert h ho
  cases p <;> first | (simp [wrong] at hp; done) | skip
  all_goals
    rcases ws with _ | ⟨a, _ | ⟨b, _ | ⟨c, _ | ⟨d, _ | ⟨e, ws⟩⟩⟩⟩⟩ <;> intro h ho <;>
      first | (simp [run] at ho; done) | skip
  all_goals simp only [operands, signed, List.map_cons, List.map_nil, if_true, Bool.false_eq_true, if_false] at h
  all_goals simp only [body, run] at h ho
  case logand | logior | logxor | lognot =>
    simp only [Option.bind_some] at h
    rw [finish_number rfl h, ← Option.some.inj ho]
    simp only [wordOf_dand, wordOf_dor, wordOf_dxor, wordOf_dnot, wordOf_toNat]
  case equal | notEqual | less | notLess | greater | notGreater =>
    simp only [Option.bind_some] at h
    rw [finish_flag h, ← Option.some.inj ho]
    simp only [outOf, BitVec.toInt_inj, ne_eq]
  case unsignedLess | unsignedNotLess | unsignedGreater | unsignedNotGreater =>
    simp only [Option.bind_some] at h
    rw [finish_flag h, ← Option.some.inj ho]
    simp only [outOf, Int.ofNat_lt, Int.ofNat_le]
  case add | subtract | multiplyLow =>
    rw [finish_number rfl (bind_double h).2, ← Option.some.inj ho]
    simp only [wordOf_add, wordOf_sub, wordOf_mul, wordOf_toNat]
  case negative =>
    rw [finish_number rfl (bind_double h).2, ← Option.some.inj ho]
    simp only [wordOf_neg, wordOf_toInt]
  case abs =>
    rw [finish_number rfl (bind_double h).2, ← Option.some.inj ho]
    split <;> simp only [wordOf_neg, wordOf_toInt]
  case addSignal =>
    have h1 := bind_double h
    have h2 := finish_checked rfl h1.1 h1.2
    rw [← Option.some.inj ho, h2.1, add_low h2.2.2]
  case multiplySignal =>
    have h1 := bind_double h
    have h2 := finish_checked rfl h1.1 h1.2
    rw [← Option.some.inj ho, h2.1, mul_low h2.2.2]
  case negativeSignal | absSignal =>
    have h1 := bind_double h
    have h2 := finish_checked rfl h1.1 h1.2
    rw [← Option.some.inj ho, h2.1]
  case shiftLeftSignal =>
    split at ho
    · rename_i hn
      rw [toInt_nonneg_count hn] at h
      have h1 := bind_ash_left h
      have h2 := finish_checked rfl h1.1 h1.2
      rw [← Option.some.inj ho, h2.1]
    · exact absurd ho (by simp)
  case shiftLeftLow =>
    split at ho
    · rename_i hn
      rw [toInt_nonneg_count hn] at h
      have h1 := bind_ash_left h
      rw [finish_number rfl h1.2, ← Option.some.inj ho, wordOf_mul_pow, wordOf_toInt]
    · exact absurd ho (by simp)
  case shiftRight =>
    split at ho
    · rename_i hn
      rw [toInt_nonneg_count hn] at h
      rw [finish_number rfl (bind_ash_right h), ← Option.some.inj ho]
      have e : a.toInt / 2 ^ b.toNat = (a.sshiftRight b.toNat).toInt := by
        rw [BitVec.toInt_sshiftRight, Int.shiftRight_eq_div_pow]
        push_cast
        rfl
      rw [e, wordOf_toInt]
    · exact absurd ho (by simp)
  case unsignedShiftRight =>
    split at ho
    · rw [finish_number rfl (bind_ash_right h), ← Option.some.inj ho]
      have e : (a.toNat : Int) / 2 ^ b.toNat = ((a >>> b.toNat).toNat : Int) := by
        rw [BitVec.toNat_ushiftRight, Nat.shiftRight_eq_div_pow]
        push_cast
        rfl
      rw [e, wordOf_toNat]
    · exact absurd ho (by simp)
  case logbit =>
    split at ho
    · rename_i hn
      rw [finish_flag (bind_ash_left h).2, ← Option.some.inj ho]
      simp only [outOf, bit_flag b hn]
    · exact absurd ho (by simp)
  case logbitSet | logbitClear =>
    split at ho
    · rw [finish_number rfl (bind_ash_left h).2, ← Option.some.inj ho]
      simp only [wordOf_dor, wordOf_dand, wordOf_dnot, wordOf_toNat, Int.one_mul, wordOf_pow]
    · exact absurd ho (by simp)
  case fieldExtract =>
    split at ho
    · rename_i hn
      obtain ⟨q, h1, h2⟩ := bind_some' h
      obtain ⟨y, h3, h4⟩ := map_some' h1
      rw [← h4] at h2
      rw [finish_number rfl h2, ← Option.some.inj ho, extract_eq h3, field_bits c hn]
    · exact absurd ho (by simp)
  case fieldDeposit =>
    split at ho
    · obtain ⟨q, h1, h2⟩ := bind_some' h
      obtain ⟨y, h3, h4⟩ := map_some' h1
      rw [← h4] at h2
      rw [finish_number rfl h2, ← Option.some.inj ho, deposit_eq h3, deposit_bits]
    · exact absurd ho (by simp)

/-- Not vacuous: `%logand(#xFF, -2)`, `so%+(3, 4)` and `%shift-right(-8, 1)` are folded and allowed. -/
example : fold .logand [255, -2] = some (.number 254) ∧ run .logand ([255, -2].map wordOf) = some (.word 254#64) ∧
    fold .addSignal [3, 4] = some (.number 7) ∧ run .addSignal ([3, 4].map wordOf) = some (.word 7#64) ∧
    fold .shiftRight [-8, 1] = some (.number (-4)) ∧
    run .shiftRight ([-8, 1].map wordOf) = some (.word (wordOf (-4))) := by decide +kernel

/-- Logical operations and arithmetic without overflow are folded whatever the constants are. -/
theorem folds (x y : Int) {p : Prim} (hp : p ∈ [Prim.logand, .logior, .logxor, .add, .subtract, .equal, .notEqual, .less,
    .notLess, .greater, .notGreater, .unsignedLess, .unsignedNotLess, .unsignedGreater, .unsignedNotGreater]) :
    (fold p [x, y]).isSome = true := by
  have hx := (wordOf x).isLt
  have hy := (wordOf y).isLt
  have hadd : double (extractUnsigned x + extractUnsigned y) = some (extractUnsigned x + extractUnsigned y) := by
    rw [extractUnsigned_eq, extractUnsigned_eq]; unfold double; rw [if_pos (by omega)]
  have hsub : double (extractUnsigned x - extractUnsigned y) = some (extractUnsigned x - extractUnsigned y) := by
    rw [extractUnsigned_eq, extractUnsigned_eq]; unfold double; rw [if_pos (by omega)]
  simp only [List.mem_cons, List.not_mem_nil, or_false] at hp
  rcases hp with h | h | h | h | h | h | h | h | h | h | h | h | h | h | h <;> subst h <;>
    simp [fold, body, signed, finish, checked, hadd, hsub]

/-- The word of a constant seen as a signed number is not below zero. -/
def NonNegative (x : Int) : Prop := 0 ≤ (wordOf x).toInt

theorem nonNegative_iff (x : Int) : NonNegative x ↔ (wordOf x).toNat < 2 ^ 63 := by
  unfold NonNegative
  have := (wordOf x).isLt
  by_cases h : (wordOf x).toNat < 2 ^ 63
  · rw [toInt_low h]; omega
  · rw [toInt_high (by omega)]; omega

/-- The negation, the absolute value and the left shift that signal overflow are folded exactly when they do not
overflow. -/
theorem folds_unless_overflow (x : Int) (n : Nat) (hn : n < 64) :
    ((fold .negativeSignal [x]).isSome = true ↔ run .negativeSignal [wordOf x] ≠ some .overflow) ∧
    ((fold .absSignal [x]).isSome = true ↔ run .absSignal [wordOf x] ≠ some .overflow) ∧
    ((fold .shiftLeftSignal [x, n]).isSome = true ↔ run .shiftLeftSignal [wordOf x, wordOf n] ≠ some .overflow) := by
  have hr := toInt_lt_zero (wordOf x)
  have hc : (wordOf (n : Int)).toNat = n := by
    simp only [wordOf, BitVec.ofInt_natCast, BitVec.toNat_ofNat]
    omega
  have key {p : Prim} (hp : checked p = true) {v : Int} (hv : -2 ^ 127 ≤ v ∧ v < 2 ^ 127) :
      (((double v).map Result.number).bind (finish p)).isSome = true ↔ some (exact v) ≠ some Out.overflow := by
    have hd : double v = some v := by unfold double; rw [if_pos hv]
    rw [hd]
    simp only [Option.map_some, Option.bind_some, finish, hp, if_true]
    unfold exact
    by_cases hf : -2 ^ 63 ≤ v ∧ v < 2 ^ 63
    · rw [literalWithOverflow_some hf, if_pos hf]; simp
    · rw [if_neg hf]
      cases hl : literalWithOverflow v with
      | none => simp
      | some y => exact absurd (literalWithOverflow_eq hv hl).2 hf
  refine ⟨?_, ?_, ?_⟩
  · rw [fold_eq]
    exact key (p := .negativeSignal) (v := -(wordOf x).toInt) rfl (by omega)
  · rw [fold_eq]
    exact key (p := .absSignal) (v := if (wordOf x).toInt < 0 then -(wordOf x).toInt else (wordOf x).toInt) rfl
      (by split <;> omega)
  · rw [fold_eq]
    have e : (wordOf (n : Int)).toInt = (n : Int) := by rw [toInt_nonneg_count (by omega), hc]
    have hb : body .shiftLeftSignal (operands .shiftLeftSignal ([x, (n : Int)].map wordOf))
        = (double ((wordOf x).toInt * 2 ^ n)).map .number := by
      simp only [operands, signed, List.map_cons, List.map_nil, if_true, body, e, ash]
      rw [if_pos (by omega)]
      simp only [Int.toNat_natCast]
    rw [hb]
    have hrun : run .shiftLeftSignal [wordOf x, wordOf n] = some (exact ((wordOf x).toInt * 2 ^ n)) := by
      simp only [run, hc]
      rw [if_pos hn]
    rw [hrun]
    apply key rfl
    have hp : (2 : Int) ^ n ≤ 2 ^ 63 := by
      have : (2 : Nat) ^ n ≤ 2 ^ 63 := Nat.pow_le_pow_right (by omega) (by omega)
      exact_mod_cast this
    have hp0 : (0 : Int) ≤ 2 ^ n := by
      have : (0 : Nat) ≤ 2 ^ n := Nat.zero_le _
      exact_mod_cast this
    have h1 : (wordOf x).toInt * 2 ^ n ≤ 2 ^ 63 * 2 ^ 63 - 1 := by
      have h1 : (wordOf x).toInt * 2 ^ n ≤ (2 ^ 63 - 1) * 2 ^ n := Int.mul_le_mul_of_nonneg_right (by omega) hp0
      have h2 : ((2 : Int) ^ 63 - 1) * 2 ^ n ≤ (2 ^ 63 - 1) * 2 ^ 63 := Int.mul_le_mul_of_nonneg_left hp (by omega)
      omega
    have h2 : -(2 ^ 63 * 2 ^ 63) ≤ (wordOf x).toInt * 2 ^ n := by
      have h1 : (-2 ^ 63) * 2 ^ n ≤ (wordOf x).toInt * 2 ^ n := Int.mul_le_mul_of_nonneg_right (by omega) hp0
      have h2 : ((2 : Int) ^ 63) * 2 ^ n ≤ 2 ^ 63 * 2 ^ 63 := Int.mul_le_mul_of_nonneg_left hp (by omega)
      have h3 : ((-2 ^ 63 : Int)) * 2 ^ n = -(2 ^ 63 * 2 ^ n) := Int.neg_mul _ _
      omega
    omega

/-- Not vacuous on either side: -3 is negated, the least word is not. -/
example : (fold .negativeSignal [-3]).isSome = true ∧ (fold .negativeSignal [2 ^ 63]).isSome = false := by
  decide +kernel

/-- Subtraction with a check is right when both operands have the same sign. -/
theorem subtract_folded_partial {x y : Int} (hs : NonNegative x ↔ NonNegative y) {r : Result}
    (h : fold .subtractSignal [x, y] = some r) : run .subtractSignal [wordOf x, wordOf y] = some (outOf r) := by
  rw [fold_eq] at h
  simp only [operands, signed, List.map_cons, List.map_nil, Bool.false_eq_true, if_false, body] at h
  have h1 := bind_double h
  have h2 := finish_checked rfl h1.1 h1.2
  rw [h2.1]
  simp only [run]
  congr 2
  rw [nonNegative_iff, nonNegative_iff] at hs
  by_cases hx : (wordOf x).toNat < 2 ^ 63
  · rw [toInt_low hx, toInt_low (hs.mp hx)]
  · have hy : ¬ (wordOf y).toNat < 2 ^ 63 := fun hy => hx (hs.mpr hy)
    rw [toInt_high (by omega), toInt_high (by omega)]
    omega

/-- Not vacuous: 5 - 7 is folded. -/
example : fold .subtractSignal [5, 7] = some (.number (-2)) ∧ (NonNegative 5 ↔ NonNegative 7) := by
  refine ⟨by decide +kernel, ?_⟩
  constructor <;> intro _ <;> unfold NonNegative <;> decide +kernel

/-- When the signs differ it is always wrong to fold: the operands are extracted without their signs (MP:321), so that
the folder goes ahead only where running the subtraction signals overflow. -/
theorem subtract_opposite_violated {x y : Int} (hs : ¬ (NonNegative x ↔ NonNegative y)) {r : Result}
    (h : fold .subtractSignal [x, y] = some r) : run .subtractSignal [wordOf x, wordOf y] = some .overflow := by
  rw [fold_eq] at h
  simp only [operands, signed, List.map_cons, List.map_nil, Bool.false_eq_true, if_false, body] at h
  have h1 := bind_double h
  have h2 := finish_checked rfl h1.1 h1.2
  simp only [run, exact]
  rw [nonNegative_iff, nonNegative_iff] at hs
  have hx2 := (wordOf x).isLt
  have hy2 := (wordOf y).isLt
  by_cases hx : (wordOf x).toNat < 2 ^ 63
  · have hy : ¬ (wordOf y).toNat < 2 ^ 63 := fun hy => hs ⟨fun _ => hy, fun _ => hx⟩
    rw [toInt_low hx, toInt_high (x := wordOf y) (by omega), if_neg (by omega)]
  · have hy : (wordOf y).toNat < 2 ^ 63 := by
      apply Classical.byContradiction
      intro hy
      exact hs ⟨fun h => absurd h hx, fun h => absurd h hy⟩
    rw [toInt_high (by omega), toInt_low hy, if_neg (by omega)]

/-- It does happen: `$minimum-signed-machine-word` less 1 is folded to `$maximum-signed-machine-word`.  The same words
are what `$minimum-integer - 1` becomes, 1 with its tag stripped taken from the tagged integer (`integer.dylan`
144-150): the result is the tagged `$maximum-integer`. -/
theorem subtract_folded_violated :
    fold .subtractSignal [2 ^ 63, 1] = some (.number (2 ^ 63 - 1)) ∧
    run .subtractSignal [wordOf (2 ^ 63), wordOf 1] = some .overflow ∧
    fold .subtractSignal [literal (4 * (-2 ^ 61) + 1), 4] = some (.number (4 * (2 ^ 61 - 1) + 1)) ∧
    run .subtractSignal [wordOf (literal (4 * (-2 ^ 61) + 1)), wordOf 4] = some .overflow := by decide +kernel

/-- The folders for the quotient and the remainder of `floor/` are right for numbers that are not negative. -/
theorem floor_folded_partial {x y : Int} (hx : NonNegative x) (hy : NonNegative y) {r q : Result}
    (hq : fold .floorQuotient [x, y] = some q) (hr : fold .floorRemainder [x, y] = some r) :
    run .floorQuotient [wordOf x, wordOf y] = some (outOf q) ∧
    run .floorRemainder [wordOf x, wordOf y] = some (outOf r) := by
  rw [nonNegative_iff] at hx hy
  rw [fold_eq] at hq hr
  simp only [operands, signed, List.map_cons, List.map_nil, Bool.false_eq_true, if_false, body] at hq hr
  simp only [run, toInt_low hx, toInt_low hy]
  split at hq
  · exact nomatch hq
  · rename_i h0
    rw [if_neg h0] at hr ⊢
    rw [if_neg h0]
    simp only [Option.bind_some] at hq hr
    rw [finish_number rfl hq, finish_number rfl hr]
    have e1 : ((wordOf x).toNat : Int).fdiv ((wordOf y).toNat : Int) = (((wordOf x).toNat / (wordOf y).toNat : Nat) : Int) := by
      rw [Int.fdiv_eq_ediv_of_nonneg _ (by omega)]; push_cast; rfl
    have e2 : ((wordOf x).toNat : Int).fmod ((wordOf y).toNat : Int) = (((wordOf x).toNat % (wordOf y).toNat : Nat) : Int) := by
      rw [Int.fmod_eq_emod_of_nonneg _ (by omega)]; push_cast; rfl
    have l1 : (wordOf x).toNat / (wordOf y).toNat ≤ (wordOf x).toNat := Nat.div_le_self _ _
    have l2 : (wordOf x).toNat % (wordOf y).toNat ≤ (wordOf x).toNat := Nat.mod_le _ _
    rw [e1, e2]
    unfold exact
    generalize (wordOf x).toNat / (wordOf y).toNat = a at *
    generalize (wordOf x).toNat % (wordOf y).toNat = b at *
    rw [if_pos (by omega), if_pos (by omega)]
    exact ⟨rfl, rfl⟩

/-- Not vacuous: 7 by 2. -/
example : NonNegative 7 ∧ NonNegative 2 ∧ fold .floorQuotient [7, 2] = some (.number 3) ∧
    fold .floorRemainder [7, 2] = some (.number 1) := by
  refine ⟨?_, ?_, by decide +kernel, by decide +kernel⟩ <;> unfold NonNegative <;> decide +kernel

/-- For negative ones they are wrong: the operands are extracted without their signs (MP:227, 232), so that -2 by 2 is
folded to a large positive number. -/
theorem floor_folded_violated :
    fold .floorQuotient [-2, 2] = some (.number (2 ^ 63 - 1)) ∧
    run .floorQuotient [wordOf (-2), wordOf 2] = some (.word (wordOf (-1))) := by decide +kernel

end Verif.MwFold
