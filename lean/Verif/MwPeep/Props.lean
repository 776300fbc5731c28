import Verif.MwPeep.Lemmas

/-!
# What the simplification of operations on machine words preserves
-/

namespace Verif.MwPeep

open Verif.MwFold

/-- **C141.**  What a call is replaced by returns the same word, and signals an error in the same cases, except in the
cases that the hypotheses name: the difference of zero and a value (`hsub`), a value that is masked and then shifted to
the right (`hmask`), a value that is shifted to the left and tagged with a negative number (`htag`); and, for errors only, a
value that is shifted to the left and back (`hshift`), and a field with a negative size. -/
theorem same_partial {t t' : Term} (h : optimize t = some t')
    (hsub : ∀ b, t ≠ .call .subtract (.const 0) b)
    (hmask : ∀ a c s, t = .call .shiftRight (.call .logand a (.const c)) (.const s) → c = -1 ∨ s = 0)
    (htag : ∀ a s c, t = .call .logxor (.call .logior (.call .shiftLeft a s) (.const c)) (.const c) → 0 ≤ c)
    (hshift : ∀ a s, t ≠ .call .shiftRight (.call .shiftLeft a (.const s)) (.const s))
    (hsize : ∀ o n x, t = .extract o (.const n) x → 0 ≤ n) (env : Nat → BitVec 64) :
    eval env t' = eval env t := by
  cases t with
  | other n m => exact absurd h (by simp [optimize])
  | const x => exact absurd h (by simp [optimize])
  | extract o s x => exact extract_same h (fun n hn => hsize o n x (by rw [hn])) env
  | call op a b =>
    simp only [optimize] at h
    cases op with
    | logxor => exact logxor_same h (fun x s c ha hb => htag x s c (by rw [ha, hb])) env
    | logand => exact logand_same h env
    | logior => exact logior_same h env
    | add => exact noop_same h add_zero fun _ _ => add_zero'
    | multiply => exact noop_same h mul_one fun _ _ => mul_one'
    | subtract => exact noop_same h sub_zero fun _ ha => absurd (by rw [ha]) (hsub b)
    | shiftLeft => exact noop_same h shl_zero fun hf => absurd hf (by simp)
    | shiftRight =>
      exact shiftRight_same h (fun x c s ha hb => hmask x c s (by rw [ha, hb]))
        (fun x s ha hb => hshift x s (by rw [ha, hb])) env

/-- A tagged integer is made and taken apart again, and the tag was below the shift. -/
example : optimize (.call .logxor (.call .logior (.call .shiftLeft (.other 0 true) (.const 2)) (.const 1)) (.const 1)) =
    some (.call .shiftLeft (.other 0 true) (.const 2)) := by decide

/-- The tag is masked away. -/
example : optimize (.call .logand (.call .logior (.other 0 false) (.const 1)) (.const (-4))) =
    some (.call .logand (.other 0 false) (.const (-4))) := by decide +kernel

/-- Of two masks is made one. -/
example : optimize (.call .logand (.call .logand (.other 0 false) (.const 12)) (.const 10)) =
    some (.call .logand (.other 0 false) (.const 8)) := by decide +kernel

/-- **C141.**  What a call is replaced by returns the word that the call returns, if it returns one, in all cases but
the three. -/
theorem right_partial {t t' : Term} (h : optimize t = some t')
    (hsub : ∀ b, t ≠ .call .subtract (.const 0) b)
    (hmask : ∀ a c s, t = .call .shiftRight (.call .logand a (.const c)) (.const s) → c = -1 ∨ s = 0)
    (htag : ∀ a s c, t = .call .logxor (.call .logior (.call .shiftLeft a s) (.const c)) (.const c) → 0 ≤ c) :
    Right t t' := by
  intro env w hw
  by_cases hshift : ∀ a s, t ≠ .call .shiftRight (.call .shiftLeft a (.const s)) (.const s)
  · by_cases hsize : ∀ o n x, t = .extract o (.const n) x → 0 ≤ n
    · rw [same_partial h hsub hmask htag hshift hsize env, hw]
    · simp only [Classical.not_forall] at hsize
      obtain ⟨o, n, x, rfl, hn⟩ := hsize
      exact extract_right h env w hw
  · simp only [Classical.not_forall, Classical.not_not] at hshift
    obtain ⟨a, s, rfl⟩ := hshift
    exact shifted_right h env w hw

/-- A value that is shifted to the left and back is the value, where the shift to the left does not overflow. -/
example : optimize (.call .shiftRight (.call .shiftLeft (.other 0 false) (.const 2)) (.const 2)) = some (.other 0 false) ∧
    eval (fun _ => 5) (.call .shiftRight (.call .shiftLeft (.other 0 false) (.const 2)) (.const 2)) = some 5 := by
  decide +kernel

/-- The overflow is lost: the call signals an error, what it is replaced by does not. -/
theorem shifted_overflow_violated : ∃ t t' : Term, ∃ env, optimize t = some t' ∧ eval env t = none ∧ eval env t' ≠ none :=
  ⟨.call .shiftRight (.call .shiftLeft (.other 0 false) (.const 2)) (.const 2), .other 0 false, fun _ => 2 ^ 62,
    by decide +kernel⟩

/-- **C141 is violated**: the difference of zero and a value, whatever the value, is replaced by the value. -/
theorem zero_minus_violated (n : Nat) (m : Bool) :
    optimize (.call .subtract (.const 0) (.other n m)) = some (.other n m) ∧
    ¬ Right (.call .subtract (.const 0) (.other n m)) (.other n m) := by
  refine ⟨by simp [optimize, optimizeCall, noop, noop1, constant, isInteger], fun h => ?_⟩
  have := h (fun _ => 1#64) (BitVec.allOnes 64) (by simp only [eval, Op.prim]; decide)
  simp only [eval] at this
  exact absurd this (by decide)

/-- **C141 is violated**: a value that is masked and then shifted to the right is replaced by the value shifted to the
right when the mask has ones in the places that are shifted out.  Whatever that mask and the shift are, there is a value for
which this is wrong, unless the mask is `-1`. -/
theorem masked_shift_violated (n : Nat) (m : Bool) {c s : Int} (hc : -2 ^ 61 ≤ c ∧ c < 2 ^ 61) (hs : 0 < s ∧ s < 61)
    (hlow : c % 2 ^ s.toNat = 2 ^ s.toNat - 1) (hne : c ≠ -1) :
    optimize (.call .shiftRight (.call .logand (.other n m) (.const c)) (.const s)) =
      some (.call .shiftRight (.other n m) (.const s)) ∧
    ¬ Right (.call .shiftRight (.call .logand (.other n m) (.const c)) (.const s))
      (.call .shiftRight (.other n m) (.const s)) := by
  have hi : isInteger c = true := (isInteger_iff c).2 hc
  have hj : isInteger s = true := (isInteger_iff s).2 (by omega)
  have hp : (0 : Int) < 2 ^ s.toNat := Int.pow_pos (by omega)
  have hd : dnot c % 2 ^ s.toNat = 0 := by
    unfold dnot
    have h1 := Int.mul_ediv_add_emod c (2 ^ s.toNat)
    rw [hlow] at h1
    have h2 : -c - 1 = (2 : Int) ^ s.toNat * (-(c / 2 ^ s.toNat) - 1) := by
      rw [Int.mul_sub, Int.mul_neg, Int.mul_one]
      omega
    rw [h2, Int.mul_emod_right]
  constructor
  · have ht : shiftedLogand c s = true := by
      simp only [shiftedLogand, ash1, show ¬ s < 0 by omega, if_false, hs.2, if_true,
        dand_zero_of_low (show s.toNat < 64 by omega) hd, decide_true]
    have h0 : ¬ s = 0 := by omega
    simp [optimize, optimizeCall, noop, noop1, constant, hi, hj, obsoleted, callTo, ht, h0]
  · intro h
    have hw := h (fun _ => wordOf (dnot c)) 0#64 (by
      rw [shiftRight_eval hj, if_pos ⟨by omega, by omega⟩, logand_eval]
      simp only [eval, Option.map_some, wordOf_dnot]
      rw [show ~~~ wordOf c &&& wordOf c = 0#64 by
        apply BitVec.eq_of_getLsbD_eq
        intro i hi
        simp only [BitVec.getLsbD_and, BitVec.getLsbD_not, hi, decide_true, Bool.true_and, BitVec.getLsbD_zero]
        cases (wordOf c).getLsbD i <;> rfl]
      simp)
    rw [shiftRight_eval hj, if_pos ⟨by omega, by omega⟩] at hw
    simp only [eval, Option.map_some, Option.some.injEq] at hw
    have hz := congrArg BitVec.toInt hw
    rw [BitVec.toInt_sshiftRight, toInt_small _ (by unfold dnot; omega), Int.shiftRight_eq_div_pow] at hz
    have h1 := Int.mul_ediv_add_emod (dnot c) (2 ^ s.toNat)
    have hz' : dnot c / 2 ^ s.toNat = 0 := by
      have : ((0#64).toInt : Int) = 0 := by decide
      rw [this] at hz
      exact_mod_cast hz
    rw [hd, hz', Int.mul_zero] at h1
    unfold dnot at h1
    omega

/-- Half of the low byte of a tagged integer is replaced by half of the integer. -/
example : (4 * 255 + 1 : Int) % 2 ^ (1 : Int).toNat = 2 ^ (1 : Int).toNat - 1 := by decide

/-- **C141 is violated**: a value that is shifted to the left and combined with a negative number twice, by `logior` and by
`logxor`, is replaced by the shifted value.  Whatever the number is, there is a value for which this is wrong. -/
theorem negative_tag_violated (n : Nat) {c s : Int} (hc : -2 ^ 61 ≤ c ∧ c < 0) (hs : 0 ≤ s ∧ s < 61) :
    optimize (.call .logxor (.call .logior (.call .shiftLeft (.other n true) (.const s)) (.const c)) (.const c)) =
      some (.call .shiftLeft (.other n true) (.const s)) ∧
    ¬ Right (.call .logxor (.call .logior (.call .shiftLeft (.other n true) (.const s)) (.const c)) (.const c))
      (.call .shiftLeft (.other n true) (.const s)) := by
  have hi : isInteger c = true := (isInteger_iff c).2 (by omega)
  have hj : isInteger s = true := (isInteger_iff s).2 (by omega)
  have hp : (0 : Int) < 2 ^ s.toNat := Int.pow_pos (by omega)
  have hle : (2 : Int) ^ s.toNat ≤ 2 ^ 60 := by
    have : 2 ^ s.toNat ≤ 2 ^ 60 := Nat.pow_le_pow_right (by omega) (by omega)
    exact_mod_cast this
  constructor
  · have ht : testShift c c s = true := by
      simp only [testShift, ash1, show ¬ s < 0 by omega, if_false, hs.2, if_true, decide_eq_true_eq]
      exact ⟨by omega, by omega, trivial⟩
    have h0 : ¬ c = 0 := by omega
    simp [optimize, optimizeCall, noop, noop1, constant, hi, hj, foldTag, callTo, ht, h0, Term.made]
  · intro h
    have hsh : eval (fun _ => BitVec.allOnes 64) (.call .shiftLeft (.other n true) (.const s)) =
        some (wordOf (-1 * 2 ^ s.toNat)) := by
      have hc := (small_count hj).1 hs.1
      have h1 : (BitVec.allOnes 64).toInt = -1 := by decide
      simp only [eval, Option.bind_some, Op.prim, returned, run, hc, show s.toNat < 64 by omega, if_true, h1, exact,
        show -2 ^ 63 ≤ -1 * (2 : Int) ^ s.toNat ∧ -1 * (2 : Int) ^ s.toNat < 2 ^ 63 by omega]
      rfl
    have hw := h (fun _ => BitVec.allOnes 64) ((wordOf (-1 * 2 ^ s.toNat) ||| wordOf c) ^^^ wordOf c) (by
      rw [logxor_eval, logior_eval, hsh]
      rfl)
    rw [hsh, Option.some.injEq] at hw
    have hb := congrArg BitVec.msb hw
    have hm1 : (wordOf (-1 * 2 ^ s.toNat)).msb = true := by
      rw [BitVec.msb_eq_toInt, toInt_small _ (by omega)]
      simp only [decide_eq_true_eq]
      omega
    have hm2 : (wordOf c).msb = true := by
      rw [BitVec.msb_eq_toInt, toInt_small _ (by omega)]
      simp only [decide_eq_true_eq]
      omega
    rw [BitVec.msb_xor, BitVec.msb_or, hm1, hm2] at hb
    exact absurd hb (by decide)

end Verif.MwPeep
