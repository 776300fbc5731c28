import Verif.MwPeep.Spec
import Verif.MwFold.Lemmas

namespace Verif.MwPeep

open Verif.MwFold

theorem constant_eq {t : Term} {x : Int} (h : constant t = some x) : t = .const x ∧ isInteger x = true := by
  unfold constant at h
  split at h
  · rename_i y
    split at h
    · rename_i hy
      simp only [Option.some.injEq] at h
      exact ⟨by rw [h], by rw [← h]; exact hy⟩
    · exact absurd h (by simp)
  · exact absurd h (by simp)

theorem callTo_eq {op : Op} {t : Term} {p : Term × Int} (h : callTo op t = some p) :
    t = .call op p.1 (.const p.2) ∧ isInteger p.2 = true := by
  unfold callTo at h
  split at h
  · rename_i op' a b
    split at h
    · rename_i hop
      obtain ⟨y, hy, rfl⟩ := map_some' h
      obtain ⟨hb, hi⟩ := constant_eq hy
      exact ⟨by rw [hop, hb], hi⟩
    · exact absurd h (by simp)
  · exact absurd h (by simp)

theorem noop_eq {a b t' : Term} {x : Int} {f s : Bool} (h : noop a b x f s = some t') :
    (a = .const x ∧ t' = b ∧ f = true) ∨ (b = .const x ∧ t' = a) := by
  unfold noop noop1 at h
  rw [Option.or_eq_some_iff] at h
  rcases h with h | ⟨_, h⟩
  · split at h
    · rename_i hc
      simp only [Bool.and_eq_true, beq_iff_eq] at hc
      exact Or.inl ⟨(constant_eq hc.2).1, by simpa using h.symm, hc.1⟩
    · exact absurd h (by simp)
  · split at h
    · rename_i hc
      simp only [Bool.and_eq_true, beq_iff_eq] at hc
      exact Or.inr ⟨(constant_eq hc.2).1, by simpa using h.symm⟩
    · exact absurd h (by simp)

theorem partialFold_eq {op : Op} {f : Int → Int → Int} {a b t' : Term} (h : partialFold op f a b = some t') :
    ∃ a' v1 v2, b = .const v1 ∧ a = .call op a' (.const v2) ∧ t' = .call op a' (.const (literal (f v1 v2))) := by
  unfold partialFold at h
  obtain ⟨v1, h1, h⟩ := bind_some' h
  obtain ⟨p, h2, h⟩ := map_some' h
  exact ⟨p.1, v1, p.2, (constant_eq h1).1, (callTo_eq h2).1, h.symm⟩

theorem foldTag_eq {test : Int → Int → Int → Bool} {op1 op2 : Op} {a b t' : Term}
    (h : foldTag test op1 op2 a b = some t') :
    ∃ a2 v0 v1 v2, b = .const v0 ∧ a = .call op1 t' (.const v1) ∧ t' = .call op2 a2 (.const v2) ∧
      test v0 v1 v2 = true ∧ isInteger v0 = true ∧ isInteger v1 = true ∧ isInteger v2 = true := by
  unfold foldTag at h
  obtain ⟨v0, h0, h⟩ := bind_some' h
  obtain ⟨p, h1, h⟩ := bind_some' h
  obtain ⟨q, h2, h⟩ := bind_some' h
  obtain ⟨p1, p2⟩ := p
  obtain ⟨q1, q2⟩ := q
  dsimp only at h
  split at h
  · rename_i hc
    simp only [Bool.and_eq_true] at hc
    simp only [Option.some.injEq] at h
    refine ⟨q1, v0, p2, q2, (constant_eq h0).1, ?_, ?_, hc.2, (constant_eq h0).2, (callTo_eq h1).2, (callTo_eq h2).2⟩
    · rw [← h]; exact (callTo_eq h1).1
    · rw [← h]; exact (callTo_eq h2).1
  · exact absurd h (by simp)

theorem obsoleted_eq {op inner : Op} {test : Int → Int → Bool} {a b t' : Term}
    (h : obsoleted op inner test a b = some t') :
    ∃ a' x t, b = .const t ∧ a = .call inner a' (.const x) ∧ t' = .call op a' b ∧ test x t = true ∧
      isInteger x = true ∧ isInteger t = true := by
  unfold obsoleted at h
  obtain ⟨t, h0, h⟩ := bind_some' h
  obtain ⟨p, h1, h⟩ := bind_some' h
  obtain ⟨p1, p2⟩ := p
  dsimp only at h
  split at h
  · rename_i hc
    simp only [Option.some.injEq] at h
    exact ⟨p1, p2, t, (constant_eq h0).1, (callTo_eq h1).1, h.symm, hc, (callTo_eq h1).2, (constant_eq h0).2⟩
  · exact absurd h (by simp)

theorem shifts_eq {a b t' : Term} (h : shifts a b = some t') :
    ∃ n, b = .const n ∧ a = .call .shiftLeft t' (.const n) ∧ isInteger n = true := by
  unfold shifts at h
  obtain ⟨p, h1, h⟩ := bind_some' h
  obtain ⟨n, h0, h⟩ := bind_some' h
  split at h
  · rename_i hc
    simp only [Option.some.injEq] at h
    exact ⟨n, (constant_eq h0).1, by rw [hc, ← h]; exact (callTo_eq h1).1, (constant_eq h0).2⟩
  · exact absurd h (by simp)

/-! ### Words -/

theorem returned_word {p : Prim} {l : List (BitVec 64)} {w : BitVec 64} (h : run p l = some (.word w)) :
    returned p l = some w := by
  unfold returned
  rw [h]

theorem exact_toInt (x : BitVec 64) : exact x.toInt = .word x := by
  have h := toInt_lt_zero x
  unfold exact
  rw [if_pos h]
  simp

theorem wordOf_zero : wordOf 0 = 0#64 := by decide

theorem wordOf_zero_toInt : (wordOf 0).toInt = 0 := by decide
theorem wordOf_one_toInt : (wordOf 1).toInt = 1 := by decide
theorem wordOf_zero_toNat : (wordOf 0).toNat = 0 := by decide

theorem small_count {n : Int} (hi : isInteger n = true) :
    (0 ≤ n → (wordOf n).toNat = n.toNat) ∧ (n < 0 → 64 ≤ (wordOf n).toNat) := by
  rw [isInteger_iff] at hi
  have h := toInt_small n (by omega)
  constructor
  · intro h0
    rcases Nat.lt_or_ge (wordOf n).toNat (2 ^ 63) with hl | hl
    · have := toInt_low hl
      omega
    · have := toInt_high hl
      have hlt := (wordOf n).isLt
      omega
  · intro h0
    rcases Nat.lt_or_ge (wordOf n).toNat (2 ^ 63) with hl | hl
    · have := toInt_low hl
      omega
    · omega

theorem ones_bit (s i : Nat) : (wordOf (2 ^ s - 1)).getLsbD i = (decide (i < 64) && decide (i < s)) := by
  rw [wordOf_ones]
  simp only [BitVec.getLsbD_setWidth, BitVec.getLsbD_allOnes]

theorem ash1_eq {n m : Int} (h : ash1 n = some m) : (n < 0 ∧ m = 0) ∨ (0 ≤ n ∧ n < 61 ∧ m = 2 ^ n.toNat) := by
  unfold ash1 at h
  split at h
  · rename_i h0
    exact Or.inl ⟨h0, by simpa using h.symm⟩
  · split at h
    · rename_i h0 h1
      exact Or.inr ⟨by omega, h1, by simpa using h.symm⟩
    · exact absurd h (by simp)

theorem bits_of_and_zero {x y : BitVec 64} (h : x &&& y = 0#64) (i : Nat) : (x.getLsbD i && y.getLsbD i) = false := by
  have := congrArg (fun w => w.getLsbD i) h
  simpa using this

theorem fold_mask {x a c : BitVec 64} (h : a &&& c = 0#64) : ((x &&& a) ||| c) ^^^ c = x &&& a := by
  apply BitVec.eq_of_getLsbD_eq
  intro i _
  have := bits_of_and_zero h i
  simp only [BitVec.getLsbD_xor, BitVec.getLsbD_or, BitVec.getLsbD_and]
  revert this
  cases x.getLsbD i <;> cases a.getLsbD i <;> cases c.getLsbD i <;> simp

theorem fold_free {x c : BitVec 64} (h : x &&& c = 0#64) : (x ||| c) ^^^ c = x := by
  apply BitVec.eq_of_getLsbD_eq
  intro i _
  have := bits_of_and_zero h i
  simp only [BitVec.getLsbD_xor, BitVec.getLsbD_or]
  revert this
  cases x.getLsbD i <;> cases c.getLsbD i <;> simp

theorem fold_thrice (x c : BitVec 64) : ((x ||| c) ^^^ c) ||| c = x ||| c := by
  apply BitVec.eq_of_getLsbD_eq
  intro i _
  simp only [BitVec.getLsbD_xor, BitVec.getLsbD_or]
  cases x.getLsbD i <;> cases c.getLsbD i <;> simp

theorem fold_loganded {x c t : BitVec 64} (h : c &&& t = 0#64) : (x ||| c) &&& t = x &&& t := by
  apply BitVec.eq_of_getLsbD_eq
  intro i _
  have := bits_of_and_zero h i
  simp only [BitVec.getLsbD_and, BitVec.getLsbD_or]
  revert this
  cases x.getLsbD i <;> cases c.getLsbD i <;> cases t.getLsbD i <;> simp

/-- Bits from `s` on of a number below `2 ^ s`. -/
theorem small_bits {c : Int} {s : Nat} (h0 : 0 ≤ c) (h : c < 2 ^ s) {i : Nat} (hi : s ≤ i) :
    (wordOf c).getLsbD i = false := by
  obtain ⟨n, rfl⟩ := Int.eq_ofNat_of_zero_le h0
  have hn : n < 2 ^ s := by exact_mod_cast h
  have hw : wordOf (n : Int) = BitVec.ofNat 64 n := by simp [wordOf]
  rw [hw, BitVec.getLsbD_ofNat, Nat.testBit_lt_two_pow (Nat.lt_of_lt_of_le hn (Nat.pow_le_pow_right (by omega) hi))]
  simp

theorem sshift_same {x y : BitVec 64} {s : Nat} (hs : s < 64) (h : ∀ i, s ≤ i → x.getLsbD i = y.getLsbD i) :
    x.sshiftRight s = y.sshiftRight s := by
  apply BitVec.eq_of_getLsbD_eq
  intro i hi
  have hm : x.msb = y.msb := by
    rw [BitVec.msb_eq_getLsbD_last, BitVec.msb_eq_getLsbD_last]
    exact h 63 (by omega)
  rw [BitVec.getLsbD_sshiftRight, BitVec.getLsbD_sshiftRight, hm, h (s + i) (by omega)]

theorem shiftedLogior_bits {c : Int} {s : Nat} (h : dand c (dnot (2 ^ s - 1)) = 0) {i : Nat} (hi : s ≤ i) :
    (wordOf c).getLsbD i = false := by
  have hw : wordOf c &&& ~~~ wordOf (2 ^ s - 1) = 0#64 := by
    rw [← wordOf_dnot, ← wordOf_dand, h, wordOf_zero]
  have hb := bits_of_and_zero hw i
  rcases Nat.lt_or_ge i 64 with h64 | h64
  · rw [BitVec.getLsbD_not, ones_bit] at hb
    simp only [h64, decide_true, Bool.true_and, show ¬ i < s by omega, decide_false, Bool.not_false, Bool.and_true] at hb
    exact hb
  · exact BitVec.getLsbD_of_ge _ _ h64

theorem shiftedLogand_bits {c : Int} {s : Nat} (h : dand (dnot c) (2 ^ s - 1) = 0) {i : Nat} (hi : i < s) (h64 : i < 64) :
    (wordOf c).getLsbD i = true := by
  have hw : ~~~ wordOf c &&& wordOf (2 ^ s - 1) = 0#64 := by
    rw [← wordOf_dnot, ← wordOf_dand, h, wordOf_zero]
  have hb := bits_of_and_zero hw i
  rw [BitVec.getLsbD_not, ones_bit] at hb
  simpa [h64, hi] using hb

theorem shl_word (x : BitVec 64) (n : Nat) : BitVec.ofInt 64 (x.toInt * 2 ^ n) = x <<< n := by
  have h := wordOf_mul_pow x.toInt n
  rw [wordOf_toInt] at h
  exact h

theorem exact_word {x : Int} {w : BitVec 64} (h : exact x = .word w) :
    w = wordOf x ∧ -2 ^ 63 ≤ x ∧ x < 2 ^ 63 := by
  unfold exact at h
  split at h
  · rename_i hr
    simp only [Out.word.injEq] at h
    exact ⟨h.symm, hr⟩
  · exact absurd h (by simp)

theorem returned_shl {x y w : BitVec 64} (h : returned .shiftLeftSignal [x, y] = some w) :
    y.toNat < 64 ∧ w = x <<< y.toNat ∧ w.toInt = x.toInt * 2 ^ y.toNat := by
  simp only [returned, run] at h
  split at h
  · rename_i v hv
    split at hv
    · rename_i h64
      simp only [Option.some.injEq] at hv h
      obtain ⟨h1, h2⟩ := exact_word hv
      subst h
      refine ⟨h64, ?_, ?_⟩
      · rw [h1]
        exact shl_word x y.toNat
      · rw [h1, toInt_small _ h2]
    · exact absurd hv (by simp)
  · exact absurd h (by simp)

/-! ### Calls -/

/-- A call is the same as its argument. -/
theorem call_same {env : Nat → BitVec 64} {op : Op} {a : Term} {c : Int}
    (h : ∀ x, returned op.prim [x, wordOf c] = some x) : eval env a = eval env (.call op a (.const c)) := by
  simp only [eval, Option.bind_some]
  cases eval env a with
  | none => rfl
  | some x => exact (h x).symm

theorem call_same' {env : Nat → BitVec 64} {op : Op} {b : Term} {c : Int}
    (h : ∀ x, returned op.prim [wordOf c, x] = some x) : eval env b = eval env (.call op (.const c) b) := by
  simp only [eval, Option.bind_some]
  cases eval env b with
  | none => rfl
  | some x => exact (h x).symm

theorem noop_same {env : Nat → BitVec 64} {op : Op} {a b t' : Term} {c : Int} {f s : Bool}
    (h : noop a b c f s = some t') (hr : ∀ x, returned op.prim [x, wordOf c] = some x)
    (hl : f = true → a = .const c → ∀ x, returned op.prim [wordOf c, x] = some x) :
    eval env t' = eval env (.call op a b) := by
  rcases noop_eq h with ⟨rfl, rfl, hf⟩ | ⟨rfl, rfl⟩
  · exact call_same' (hl hf rfl)
  · exact call_same hr

theorem logand_eval {env : Nat → BitVec 64} {a : Term} {c : Int} :
    eval env (.call .logand a (.const c)) = (eval env a).map fun x => x &&& wordOf c := by
  simp only [eval, Op.prim, returned, run, Option.bind_some]
  cases eval env a <;> rfl

theorem logior_eval {env : Nat → BitVec 64} {a : Term} {c : Int} :
    eval env (.call .logior a (.const c)) = (eval env a).map fun x => x ||| wordOf c := by
  simp only [eval, Op.prim, returned, run, Option.bind_some]
  cases eval env a <;> rfl

theorem logxor_eval {env : Nat → BitVec 64} {a : Term} {c : Int} :
    eval env (.call .logxor a (.const c)) = (eval env a).map fun x => x ^^^ wordOf c := by
  simp only [eval, Op.prim, returned, run, Option.bind_some]
  cases eval env a <;> rfl

theorem shiftRight_eval {env : Nat → BitVec 64} {a : Term} {c : Int} (hi : isInteger c = true) :
    eval env (.call .shiftRight a (.const c)) =
      if 0 ≤ c ∧ c < 64 then (eval env a).map fun x => x.sshiftRight c.toNat else none := by
  have hc := small_count hi
  simp only [eval, Op.prim, returned, run, Option.bind_some]
  by_cases h : 0 ≤ c ∧ c < 64
  · have := hc.1 h.1
    rw [if_pos h]
    cases eval env a with
    | none => rfl
    | some x =>
      simp only [Option.bind_some, Option.map_some, this, show c.toNat < 64 by omega, if_true]
  · rw [if_neg h]
    have : ¬ (wordOf c).toNat < 64 := by
      by_cases h0 : 0 ≤ c
      · have := hc.1 h0
        omega
      · have := hc.2 (by omega)
        omega
    cases eval env a with
    | none => rfl
    | some x => simp only [Option.bind_some, this, if_false]

theorem shiftLeft_eval {env : Nat → BitVec 64} {a : Term} {c : Int} {w : BitVec 64} (hi : isInteger c = true)
    (h : eval env (.call .shiftLeft a (.const c)) = some w) :
    ∃ x, eval env a = some x ∧ 0 ≤ c ∧ c < 64 ∧ w = x <<< c.toNat ∧ w.toInt = x.toInt * 2 ^ c.toNat := by
  have hc := small_count hi
  simp only [eval, Op.prim, Option.bind_some] at h
  obtain ⟨x, hx, h⟩ := bind_some' h
  obtain ⟨h1, h2, h3⟩ := returned_shl h
  have h0 : 0 ≤ c := by
    rcases Int.lt_or_le c 0 with h0 | h0
    · have := hc.2 h0
      omega
    · exact h0
  have := hc.1 h0
  rw [this] at h1 h2 h3
  exact ⟨x, hx, h0, by omega, h2, h3⟩

theorem map_same {α : Type} {o : Option α} {f g : α → α} (h : ∀ x, o = some x → f x = g x) : o.map f = o.map g := by
  cases o with
  | none => rfl
  | some x => simp only [Option.map_some, h x rfl]

theorem same_of_map {α : Type} {o : Option α} {f : α → α} (h : ∀ x, o = some x → f x = x) : o = o.map f := by
  cases o with
  | none => rfl
  | some x => simp only [Option.map_some, h x rfl]

theorem xor_zero (x : BitVec 64) : returned (Op.prim .logxor) [x, wordOf 0] = some x := by
  simp [Op.prim, returned, run, wordOf_zero]

theorem xor_zero' (x : BitVec 64) : returned (Op.prim .logxor) [wordOf 0, x] = some x := by
  simp [Op.prim, returned, run, wordOf_zero]

theorem or_zero (x : BitVec 64) : returned (Op.prim .logior) [x, wordOf 0] = some x := by
  simp [Op.prim, returned, run, wordOf_zero]

theorem or_zero' (x : BitVec 64) : returned (Op.prim .logior) [wordOf 0, x] = some x := by
  simp [Op.prim, returned, run, wordOf_zero]

theorem add_zero (x : BitVec 64) : returned (Op.prim .add) [x, wordOf 0] = some x := by
  simp only [Op.prim, returned, run, wordOf_zero_toInt, Int.add_zero, exact_toInt]

theorem add_zero' (x : BitVec 64) : returned (Op.prim .add) [wordOf 0, x] = some x := by
  simp only [Op.prim, returned, run, wordOf_zero_toInt, Int.zero_add, exact_toInt]

theorem mul_one (x : BitVec 64) : returned (Op.prim .multiply) [x, wordOf 1] = some x := by
  simp only [Op.prim, returned, run, wordOf_one_toInt, Int.mul_one, exact_toInt]

theorem mul_one' (x : BitVec 64) : returned (Op.prim .multiply) [wordOf 1, x] = some x := by
  simp only [Op.prim, returned, run, wordOf_one_toInt, Int.one_mul, exact_toInt]

theorem sub_zero (x : BitVec 64) : returned (Op.prim .subtract) [x, wordOf 0] = some x := by
  simp only [Op.prim, returned, run, wordOf_zero_toInt, Int.sub_zero, exact_toInt]

theorem shr_zero (x : BitVec 64) : returned (Op.prim .shiftRight) [x, wordOf 0] = some x := by
  have hx : x.sshiftRight 0 = x := by simp
  simp only [Op.prim, returned, run, wordOf_zero_toNat, show (0 : Nat) < 64 by omega, if_true, hx]

theorem shl_zero (x : BitVec 64) : returned (Op.prim .shiftLeft) [x, wordOf 0] = some x := by
  simp only [Op.prim, returned, run, wordOf_zero_toNat, show (0 : Nat) < 64 by omega, if_true, Int.pow_zero, Int.mul_one,
    exact_toInt]

theorem testShift_eq {c d s : Int} (h : testShift c d s = true) :
    d = c ∧ ((s < 0 ∧ c < 0) ∨ (0 ≤ s ∧ s < 61 ∧ c < 2 ^ s.toNat)) := by
  unfold testShift at h
  split at h
  · rename_i m hm
    simp only [decide_eq_true_eq] at h
    refine ⟨h.2.2, ?_⟩
    rcases ash1_eq hm with ⟨h1, h2⟩ | ⟨h1, h2, h3⟩
    · exact Or.inl ⟨h1, by rw [h2] at h; exact h.2.1⟩
    · exact Or.inr ⟨h1, h2, by rw [h3] at h; exact h.2.1⟩
  · exact absurd h (by simp)

theorem logxor_same {a b t' : Term} (h : optimizeCall .logxor a b = some t')
    (htag : ∀ x s c, a = .call .logior (.call .shiftLeft x s) (.const c) → b = .const c → 0 ≤ c)
    (env : Nat → BitVec 64) : eval env t' = eval env (.call .logxor a b) := by
  simp only [optimizeCall] at h
  rw [Option.or_eq_some_iff] at h
  rcases h with h | ⟨_, h⟩
  · rw [Option.or_eq_some_iff] at h
    rcases h with h | ⟨_, h⟩
    · exact noop_same h xor_zero fun _ _ => xor_zero'
    · obtain ⟨x, c, d, s, rfl, rfl, rfl, ht, hc, _, hs⟩ := foldTag_eq h
      obtain ⟨rfl, h2⟩ := testShift_eq ht
      have h0 := htag x (.const s) _ rfl rfl
      rw [logxor_eval, logior_eval, Option.map_map]
      apply same_of_map
      intro w hw
      obtain ⟨y, _, _, _, h3, _⟩ := shiftLeft_eval hs hw
      rcases h2 with h2 | h2
      · omega
      apply fold_free
      apply BitVec.eq_of_getLsbD_eq
      intro i hi
      rw [BitVec.getLsbD_and, h3, BitVec.getLsbD_shiftLeft]
      by_cases his : i < s.toNat
      · simp [his]
      · rw [small_bits h0 h2.2.2 (by omega)]
        simp
  · obtain ⟨x, c, d, m, rfl, rfl, rfl, ht, _⟩ := foldTag_eq h
    simp only [testMask, decide_eq_true_eq] at ht
    obtain ⟨rfl, h2⟩ := ht
    rw [logxor_eval, logior_eval, logand_eval, Option.map_map, Option.map_map]
    apply map_same
    intro w _
    refine (fold_mask ?_).symm
    rw [← wordOf_dand, h2, wordOf_zero]

theorem logand_same {a b t' : Term} (h : optimizeCall .logand a b = some t') (env : Nat → BitVec 64) :
    eval env t' = eval env (.call .logand a b) := by
  simp only [optimizeCall] at h
  rw [Option.or_eq_some_iff] at h
  rcases h with h | ⟨_, h⟩
  · obtain ⟨x, v1, v2, rfl, rfl, rfl⟩ := partialFold_eq h
    rw [logand_eval, logand_eval, logand_eval, Option.map_map]
    apply map_same
    intro w _
    simp only [wordOf_literal, wordOf_dand, Function.comp]
    rw [BitVec.and_assoc, BitVec.and_comm (wordOf v2)]
  · obtain ⟨x, c, t, rfl, rfl, rfl, ht, _⟩ := obsoleted_eq h
    simp only [loganded, decide_eq_true_eq] at ht
    rw [logand_eval, logand_eval, logior_eval, Option.map_map]
    apply map_same
    intro w _
    refine (fold_loganded ?_).symm
    rw [← wordOf_dand, ht, wordOf_zero]

theorem logior_same {a b t' : Term} (h : optimizeCall .logior a b = some t') (env : Nat → BitVec 64) :
    eval env t' = eval env (.call .logior a b) := by
  simp only [optimizeCall] at h
  rw [Option.or_eq_some_iff] at h
  rcases h with h | ⟨_, h⟩
  · rw [Option.or_eq_some_iff] at h
    rcases h with h | ⟨_, h⟩
    · exact noop_same h or_zero fun _ _ => or_zero'
    · obtain ⟨x, v1, v2, rfl, rfl, rfl⟩ := partialFold_eq h
      rw [logior_eval, logior_eval, logior_eval, Option.map_map]
      apply map_same
      intro w _
      simp only [wordOf_literal, wordOf_dor, Function.comp]
      rw [BitVec.or_assoc, BitVec.or_comm (wordOf v2)]
  · obtain ⟨x, c, d, m, rfl, rfl, rfl, ht, _⟩ := foldTag_eq h
    simp only [testThrice, decide_eq_true_eq] at ht
    obtain ⟨rfl, rfl⟩ := ht
    rw [logior_eval (a := .call .logxor _ _), logxor_eval, logior_eval, Option.map_map, Option.map_map]
    apply map_same
    intro w _
    exact (fold_thrice w _).symm

theorem shiftedLogior_same {a : Term} {c s : Int} (hs : isInteger s = true) (ht : shiftedLogior c s = true)
    (env : Nat → BitVec 64) :
    eval env (.call .shiftRight a (.const s)) = eval env (.call .shiftRight (.call .logior a (.const c)) (.const s)) := by
  rw [shiftRight_eval hs, shiftRight_eval hs, logior_eval]
  unfold shiftedLogior at ht
  split at ht
  · rename_i m hm
    simp only [decide_eq_true_eq] at ht
    rcases ash1_eq hm with ⟨h1, _⟩ | ⟨h1, h2, h3⟩
    · rw [if_neg (by omega), if_neg (by omega)]
    · rw [if_pos ⟨h1, by omega⟩, if_pos ⟨h1, by omega⟩, Option.map_map]
      apply map_same
      intro w _
      apply sshift_same (by omega)
      intro i hi
      rw [h3] at ht
      rw [BitVec.getLsbD_or, shiftedLogior_bits ht hi, Bool.or_false]
  · exact absurd ht (by simp)

theorem wordOf_ones64 : wordOf (-1) = BitVec.allOnes 64 := by decide

theorem shiftRight_cases {a b t' : Term} (h : optimizeCall .shiftRight a b = some t') :
    (b = .const 0 ∧ t' = a) ∨
    (∃ x c s, a = .call .logior x (.const c) ∧ b = .const s ∧ t' = .call .shiftRight x b ∧ shiftedLogior c s = true ∧
      isInteger s = true) ∨
    (∃ x c s, a = .call .logand x (.const c) ∧ b = .const s ∧ t' = .call .shiftRight x b ∧ shiftedLogand c s = true ∧
      isInteger s = true) ∨
    (∃ s, a = .call .shiftLeft t' (.const s) ∧ b = .const s ∧ isInteger s = true) := by
  simp only [optimizeCall] at h
  rw [Option.or_eq_some_iff] at h
  rcases h with h | ⟨_, h⟩
  · rw [Option.or_eq_some_iff] at h
    rcases h with h | ⟨_, h⟩
    · rw [Option.or_eq_some_iff] at h
      rcases h with h | ⟨_, h⟩
      · rcases noop_eq h with ⟨_, _, hf⟩ | h
        · exact absurd hf (by simp)
        · exact Or.inl h
      · obtain ⟨x, c, s, h1, h2, h3, h4, _, h6⟩ := obsoleted_eq h
        exact Or.inr (Or.inl ⟨x, c, s, h2, h1, h3, h4, h6⟩)
    · obtain ⟨x, c, s, h1, h2, h3, h4, _, h6⟩ := obsoleted_eq h
      exact Or.inr (Or.inr (Or.inl ⟨x, c, s, h2, h1, h3, h4, h6⟩))
  · obtain ⟨s, h1, h2, h3⟩ := shifts_eq h
    exact Or.inr (Or.inr (Or.inr ⟨s, h2, h1, h3⟩))

theorem shiftRight_same {a b t' : Term} (h : optimizeCall .shiftRight a b = some t')
    (hmask : ∀ x c s, a = .call .logand x (.const c) → b = .const s → c = -1 ∨ s = 0)
    (hshift : ∀ x s, a = .call .shiftLeft x (.const s) → b ≠ .const s) (env : Nat → BitVec 64) :
    eval env t' = eval env (.call .shiftRight a b) := by
  rcases shiftRight_cases h with ⟨rfl, rfl⟩ | ⟨x, c, s, rfl, rfl, rfl, ht, hs⟩ | ⟨x, c, s, rfl, rfl, rfl, ht, hs⟩ |
    ⟨s, rfl, rfl, hs⟩
  · exact call_same shr_zero
  · exact shiftedLogior_same hs ht env
  · rcases hmask x c s rfl rfl with rfl | rfl
    · rw [shiftRight_eval hs, shiftRight_eval hs, logand_eval, wordOf_ones64, Option.map_map]
      have he : ((fun x : BitVec 64 => x.sshiftRight s.toNat) ∘ fun x => x &&& BitVec.allOnes 64) =
          fun x => x.sshiftRight s.toNat := by
        funext w
        simp only [Function.comp, BitVec.and_allOnes]
      rw [he]
    · exfalso
      simp [optimizeCall, noop, noop1, constant, isInteger] at h
  · exact absurd rfl (hshift t' s rfl)

theorem extract_same {o s x t' : Term} (h : optimizeExtract o s x = some t')
    (hsize : ∀ n, s = .const n → 0 ≤ n) (env : Nat → BitVec 64) : eval env t' = eval env (.extract o s x) := by
  unfold optimizeExtract at h
  split at h
  · rename_i ho
    obtain ⟨n, hn, h⟩ := bind_some' h
    obtain ⟨m, hm, h'⟩ := map_some' h
    obtain ⟨rfl, _⟩ := constant_eq ho
    obtain ⟨rfl, hi⟩ := constant_eq hn
    have h0 := hsize n rfl
    subst h'
    rcases ash1_eq hm with ⟨h1, _⟩ | ⟨h1, h2, h3⟩
    · omega
    · have hc := (small_count hi).1 h0
      rw [logand_eval]
      simp only [eval, Option.bind_some, returned, run, wordOf_zero_toNat, hc, Nat.zero_add,
        show n.toNat ≤ 64 by omega, if_true, wordOf_literal, h3, wordOf_ones]
      cases eval env x with
      | none => rfl
      | some w =>
        simp only [Option.map_some, Option.bind_some, Option.some.injEq]
        apply BitVec.eq_of_getLsbD_eq
        intro i hi
        simp only [BitVec.getLsbD_and, BitVec.getLsbD_setWidth, BitVec.getLsbD_allOnes, BitVec.getLsbD_extractLsb', Nat.zero_add,
          hi, decide_true, Bool.true_and]
        rw [Bool.and_comm, hc]
  · exact absurd h (by simp)

theorem extract_right {o x t' : Term} {n : Int} (h : optimize (.extract o (.const n) x) = some t') (env : Nat → BitVec 64)
    (w : BitVec 64) (hw : eval env (.extract o (.const n) x) = some w) : eval env t' = some w := by
  have hn : 0 ≤ n := by
    have h' := h
    simp only [optimize, optimizeExtract] at h'
    split at h'
    · obtain ⟨k, hk, _⟩ := bind_some' h'
      obtain ⟨hk1, hk2⟩ := constant_eq hk
      rw [Term.const.injEq] at hk1
      subst hk1
      rcases Int.lt_or_le n 0 with h0 | h0
      · have := (small_count hk2).2 h0
        simp only [eval, Option.bind_some] at hw
        obtain ⟨o', _, hw⟩ := bind_some' hw
        obtain ⟨x', _, hw⟩ := bind_some' hw
        rcases Nat.lt_or_ge 64 (o'.toNat + (wordOf n).toNat) with hg | hg
        · simp only [returned, run, show ¬ (o'.toNat + (wordOf n).toNat ≤ 64) by omega, if_false] at hw
          exact absurd hw (by simp)
        · have hi := hk2
          rw [isInteger_iff] at hi
          have hv := toInt_small n (by omega)
          have := toInt_low (x := wordOf n) (by omega)
          omega
      · exact h0
    · exact absurd h' (by simp)
  rw [extract_same h (fun k hk => by rw [Term.const.injEq] at hk; omega) env, hw]

theorem sshift_shl {x w : BitVec 64} {s : Nat} (h : w.toInt = x.toInt * 2 ^ s) : w.sshiftRight s = x := by
  apply BitVec.eq_of_toInt_eq
  rw [BitVec.toInt_sshiftRight, h, Int.shiftRight_eq_div_pow, Int.natCast_pow]
  have : (0 : Int) < 2 ^ s := Int.pow_pos (by omega)
  exact Int.mul_ediv_cancel _ (by exact_mod_cast Int.ne_of_gt this)

theorem shifted_right {a t' : Term} {s : Int}
    (h : optimize (.call .shiftRight (.call .shiftLeft a (.const s)) (.const s)) = some t') (env : Nat → BitVec 64)
    (w : BitVec 64) (hw : eval env (.call .shiftRight (.call .shiftLeft a (.const s)) (.const s)) = some w) :
    eval env t' = some w := by
  rcases shiftRight_cases (show optimizeCall .shiftRight _ _ = some t' from h) with ⟨hb, ht⟩ | ⟨x, c, s', ha, _⟩ |
    ⟨x, c, s', ha, _⟩ | ⟨s', ha, hb, hs⟩
  · rw [Term.const.injEq] at hb
    subst hb ht
    rw [call_same (env := env) (op := .shiftRight) (c := 0) shr_zero, hw]
  · exact absurd ha (by simp)
  · exact absurd ha (by simp)
  · rw [Term.const.injEq] at hb
    subst hb
    rw [Term.call.injEq] at ha
    obtain ⟨_, rfl, _⟩ := ha
    rw [shiftRight_eval hs] at hw
    split at hw
    · obtain ⟨v, hv, hvw⟩ := map_some' hw
      obtain ⟨x, hx, _, _, _, h3⟩ := shiftLeft_eval hs hv
      rw [hx, ← hvw, sshift_shl h3]
    · exact absurd hw (by simp)

theorem dand_zero_of_low {x : Int} {s : Nat} (hs : s < 64) (h : x % 2 ^ s = 0) : dand x (2 ^ s - 1) = 0 := by
  unfold dand
  have h0 : BitVec.ofInt 128 x &&& BitVec.ofInt 128 (2 ^ s - 1) = 0#128 := by
    apply BitVec.eq_of_getLsbD_eq
    intro i hi
    rw [BitVec.getLsbD_and]
    have hx : i < s → (BitVec.ofInt 128 x).getLsbD i = false := by
      intro his
      obtain ⟨k, rfl⟩ := Int.dvd_of_emod_eq_zero h
      rw [Int.mul_comm, BitVec.ofInt_mul]
      have hp : BitVec.ofInt 128 (2 ^ s) = BitVec.twoPow 128 s := by
        have h1 : (2 ^ s : Int) = ((2 ^ s : Nat) : Int) := by push_cast; rfl
        rw [h1, BitVec.ofInt_natCast]
        apply BitVec.eq_of_toNat_eq
        simp [BitVec.toNat_twoPow]
      rw [hp, BitVec.mul_twoPow_eq_shiftLeft, BitVec.getLsbD_shiftLeft]
      simp [his]
    by_cases his : i < s
    · rw [hx his]
      simp
    · have ho : (BitVec.ofInt 128 (2 ^ s - 1)).getLsbD i = false := by
        have h2 : (2 ^ s - 1 : Int) = ((2 ^ s - 1 : Nat) : Int) := by
          have : 1 ≤ 2 ^ s := Nat.one_le_two_pow
          rw [Int.natCast_sub this]
          push_cast
          rfl
        rw [h2]
        have h3 : BitVec.ofInt 128 ((2 ^ s - 1 : Nat) : Int) = BitVec.ofNat 128 (2 ^ s - 1) := by simp
        rw [h3, BitVec.getLsbD_ofNat, Nat.testBit_two_pow_sub_one]
        simp [his]
      rw [ho]
      simp
  rw [h0]
  decide

end Verif.MwPeep
