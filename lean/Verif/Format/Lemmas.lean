import Verif.Format.Spec
import Verif.IntString.Props

namespace Verif.Format
open Verif.IntString

/-! ### integers -/

theorem digitLoop_zero (base : Int) (fuel : Nat) (b : List Char) : digitLoop base fuel 0 b = some b := by
  unfold digitLoop
  simp

theorem digitLoop_out (base : Int) (n : Int) (b : List Char) (h : n ≠ 0) : digitLoop base 0 n b = none := by
  unfold digitLoop
  simp [h]

theorem digitLoop_succ (base : Int) (fuel : Nat) (n : Int) (b : List Char) (h : n ≠ 0) :
    digitLoop base (fuel + 1) n b =
      digitLoop base fuel (n.tdiv base) (b ++ [integerToCharacter (n.tmod base)]) := by
  rw [digitLoop]
  simp [h]

theorem repeatDigits_loop (radix : Nat) : ∀ (fuel : Nat) (n : Nat) (ds : List Char),
    n ≠ 0 → repeatDigits radix fuel n ds = (digitLoop radix fuel n ds.reverse).map List.reverse
  | 0, n, ds, h => by
    rw [digitLoop_out _ _ _ (by exact_mod_cast h)]
    rfl
  | fuel + 1, n, ds, h => by
    rw [digitLoop_succ _ _ _ _ (by exact_mod_cast h)]
    unfold repeatDigits
    dsimp only
    have e1 : (n : Int).fdiv (radix : Int) = ((n / radix : Nat) : Int) := by
      rw [Int.fdiv_eq_ediv_of_nonneg _ (by omega)]
      simp
    have e2 : (n : Int).fmod (radix : Int) = ((n % radix : Nat) : Int) := by
      rw [Int.fmod_eq_emod_of_nonneg _ (by omega)]
      simp
    have e3 : (n : Int).tdiv (radix : Int) = ((n / radix : Nat) : Int) := by
      rw [← Int.ofNat_tdiv]
    have e4 : (n : Int).tmod (radix : Int) = ((n % radix : Nat) : Int) := by
      rw [← Int.ofNat_tmod]
    rw [e1, e2, e3, e4]
    by_cases hq : n / radix = 0
    · rw [if_pos (by exact_mod_cast hq), hq]
      rw [Int.natCast_zero, digitLoop_zero]
      simp
    · rw [if_neg (by exact_mod_cast hq), repeatDigits_loop radix fuel _ _ hq]
      simp

/-- `format-integer` writes what `integer-to-string` gives. -/
theorem formatInt_eq (n : Int) (hn : fits n = true) (radix : Nat) (h2 : 2 ≤ radix)
    (h36 : radix ≤ 36) (lowercase : Bool) :
    (formatInt n radix lowercase).map Out.ok = integerToString n radix 0 '0' lowercase := by
  rw [fits_iff] at hn
  unfold integerToString
  rw [if_neg (by omega)]
  dsimp only
  unfold formatInt
  by_cases hneg : n < 0
  · obtain ⟨k, rfl⟩ : ∃ k : Nat, n = -(k : Int) := ⟨n.natAbs, by omega⟩
    have e1 : (-(k : Int)).tdiv (radix : Int) = -((k / radix : Nat) : Int) := by
      rw [Int.neg_tdiv, ← Int.ofNat_tdiv]
    have e2 : (-(k : Int)).tmod (radix : Int) = -((k % radix : Nat) : Int) := by
      rw [Int.neg_tmod, ← Int.ofNat_tmod]
    simp only [if_pos hneg, decide_eq_true hneg, e1, e2, Int.neg_neg]
    have hz : -(k : Int) ≠ 0 := by omega
    rw [if_neg hz]
    simp only [List.nil_append, ↓reduceIte]
    by_cases hq : k / radix = 0
    · rw [if_pos (by rw [hq]; rfl), hq]
      rw [Int.natCast_zero, digitLoop_zero]
      simp
      cases lowercase <;> simp [show asLowercase '-' = '-' from by decide]
    · rw [if_neg (by omega), repeatDigits_loop _ _ _ _ hq]
      simp only [List.reverse_singleton, Option.map_map]
      have hk : k ≤ 2 ^ 61 := by omega
      obtain ⟨ds, h1, h2', h3, h4⟩ := digitLoop_spec h2 h36 62 (k / radix)
        [integerToCharacter ((k % radix : Nat) : Int)] (by
          have := Nat.div_le_self k radix
          omega)
      rw [h4]
      simp only [Option.map_some]
      have hz2 : (0 - (([integerToCharacter ((k % radix : Nat) : Int)] ++
          (ds.map (glyph Bool.false)).reverse).length : Int) - 1).toNat = 0 := by omega
      rw [hz2]
      cases lowercase <;> simp [show asLowercase '-' = '-' from by decide]
  · simp only [if_neg hneg, decide_eq_false hneg]
    obtain ⟨k, rfl⟩ : ∃ k : Nat, n = (k : Int) := ⟨n.natAbs, by omega⟩
    by_cases hk : k = 0
    · subst hk
      have : repeatDigits (radix : Int) 62 ((0 : Nat) : Int) [] = some ['0'] := by
        unfold repeatDigits
        simp
        decide
      rw [this]
      simp only [Int.natCast_zero, ↓reduceIte, Bool.false_eq_true]
      rw [digitLoop_zero]
      cases lowercase <;> decide
    · have hk' : (k : Int) ≠ 0 := by exact_mod_cast hk
      rw [repeatDigits_loop _ _ _ _ hk]
      simp only [Bool.false_eq_true, ↓reduceIte, if_neg hk', List.reverse_nil]
      obtain ⟨ds, h1, h2', h3, h4⟩ := digitLoop_spec h2 h36 62 k [] (by omega)
      rw [h4]
      simp only [Option.map_some, List.nil_append]
      have hz2 : (0 - ((ds.map (glyph Bool.false)).reverse.length : Int) - 0).toNat = 0 := by omega
      rw [hz2]
      cases lowercase <;> simp

theorem formatInt_numeral (n : Int) (hn : fits n = true) (radix : Nat) (h2 : 2 ≤ radix)
    (h36 : radix ≤ 36) (lowercase : Bool) :
    ∃ t, formatInt n radix lowercase = some t ∧ Numeral radix lowercase n t := by
  obtain ⟨ds, h1, h2', h3, h4⟩ := integer_to_string_spec n hn radix h2 h36 0 '0' lowercase
  rw [← formatInt_eq n hn radix h2 h36] at h4
  cases h5 : formatInt n radix lowercase with
  | none => rw [h5] at h4; simp at h4
  | some t =>
    rw [h5] at h4
    simp only [Option.map_some, Option.some.injEq, Out.ok.injEq] at h4
    refine ⟨t, rfl, ds, h1, h2', h3, ?_⟩
    rw [h4]
    have : (0 - (ds.length : Int) - if n < 0 then 1 else 0).toNat = 0 := by
      split <;> omega
    rw [this]
    simp

theorem digits_lt (base : Nat) (hb : 2 ≤ base) : ∀ (a : List Nat), (∀ d ∈ a, d < base) →
    numeral base a < base ^ a.length
  | [], _ => by simp [numeral]
  | x :: a, ha => by
    have h0 := digits_lt base hb a (fun d hd => ha d (by simp [hd]))
    have hx := ha x (by simp)
    simp only [numeral, List.length_cons, Nat.pow_succ]
    have : (x + 1) * base ^ a.length ≤ base * base ^ a.length := Nat.mul_le_mul_right _ hx
    rw [Nat.add_mul, Nat.mul_comm base] at this
    omega

/-- A number has one numeral. -/
theorem digits_unique (base : Nat) (hb : 2 ≤ base) : ∀ (a b : List Nat), (∀ d ∈ a, d < base) →
    (∀ d ∈ b, d < base) → a.length = b.length → numeral base a = numeral base b → a = b
  | [], [], _, _, _, _ => rfl
  | [], _ :: _, _, _, h, _ => by simp at h
  | _ :: _, [], _, _, h, _ => by simp at h
  | x :: a, y :: b, ha, hb', hl, h => by
    have hl' : a.length = b.length := by simpa using hl
    have la : numeral base a < base ^ a.length := digits_lt base hb a (fun d hd => ha d (by simp [hd]))
    have lb : numeral base b < base ^ a.length := hl' ▸ digits_lt base hb b (fun d hd => hb' d (by simp [hd]))
    simp only [numeral, ← hl'] at h
    have hp : 0 < base ^ a.length := Nat.pow_pos (by omega)
    have hx : x = y := by
      have h1 : (x * base ^ a.length + numeral base a) / base ^ a.length = x := by
        rw [Nat.mul_comm, Nat.mul_add_div hp, Nat.div_eq_of_lt la]; simp
      have h2 : (y * base ^ a.length + numeral base b) / base ^ a.length = y := by
        rw [Nat.mul_comm, Nat.mul_add_div hp, Nat.div_eq_of_lt lb]; simp
      rw [← h1, h, h2]
    subst hx
    rw [digits_unique base hb a b (fun d hd => ha d (by simp [hd])) (fun d hd => hb' d (by simp [hd]))
      hl' (by omega)]
theorem Numeral.unique {base : Nat} (hb : 2 ≤ base) {l : Bool} {n : Int} {s t : List Char}
    (hs : Numeral base l n s) (ht : Numeral base l n t) : s = t := by
  obtain ⟨a, a1, a2, a3, rfl⟩ := hs
  obtain ⟨b, b1, b2, b3, rfl⟩ := ht
  have len : ∀ (a : List Nat), (∀ d ∈ a, d < base) → (a = [0] ∨ ∃ d a', a = d :: a' ∧ d ≠ 0) →
      numeral base a ≠ 0 → base ^ (a.length - 1) ≤ numeral base a ∧
        numeral base a < base ^ (a.length - 1 + 1) := by
    intro a h1 h2 h3
    rcases h2 with rfl | ⟨d, a', rfl, hd⟩
    · simp [numeral] at h3
    · refine ⟨?_, by simpa using digits_lt base hb _ h1⟩
      simp only [numeral, List.length_cons, Nat.add_sub_cancel]
      have : 1 * base ^ a'.length ≤ d * base ^ a'.length := Nat.mul_le_mul_right _ (by omega)
      omega
  by_cases hz : n.natAbs = 0
  · have zero : ∀ (a : List Nat), (a = [0] ∨ ∃ d a', a = d :: a' ∧ d ≠ 0) →
        numeral base a = 0 → a = [0] := by
      intro a h2 h3
      rcases h2 with rfl | ⟨d, a', rfl, hd⟩
      · rfl
      · simp only [numeral] at h3
        have : 0 < base ^ a'.length := Nat.pow_pos (by omega)
        have : 0 < d * base ^ a'.length := Nat.mul_pos (by omega) this
        omega
    rw [zero a a3 (by omega), zero b b3 (by omega)]
  · have la := len a a2 a3 (by omega)
    have lb := len b b2 b3 (by omega)
    have key : ∀ i j m : Nat, base ^ i ≤ m → m < base ^ (i + 1) → base ^ j ≤ m →
        m < base ^ (j + 1) → ¬ i < j := by
      intro i j m h1 h2 h3 h4 h
      have : base ^ (i + 1) ≤ base ^ j := Nat.pow_le_pow_right (by omega) h
      omega
    have e : a.length - 1 = b.length - 1 := by
      have k1 := key _ _ _ la.1 la.2 (by rw [a1, ← b1]; exact lb.1) (by rw [a1, ← b1]; exact lb.2)
      have k2 := key _ _ _ lb.1 lb.2 (by rw [b1, ← a1]; exact la.1) (by rw [b1, ← a1]; exact la.2)
      omega
    have ne : ∀ (a : List Nat), (a = [0] ∨ ∃ d a', a = d :: a' ∧ d ≠ 0) → 0 < a.length := by
      rintro a (rfl | ⟨d, a', rfl, _⟩) <;> simp
    have := ne a a3
    have := ne b b3
    rw [digits_unique base hb a b a2 b2 (by omega) (by omega)]

/-! ### one round -/

theorem fieldLoop_length : ∀ (cs : List Char) (r : Int) (f : Int) (rest : List Char),
    fieldLoop cs r = some (f, rest) → rest.length ≤ cs.length
  | [], r, f, rest, h => by
    simp only [fieldLoop, Option.some.injEq, Prod.mk.injEq] at h
    rw [← h.2]
  | c :: cs, r, f, rest, h => by
    unfold fieldLoop at h
    split at h
    · dsimp only at h
      split at h
      · have := fieldLoop_length cs _ f rest h
        simp only [List.length_cons]
        omega
      · cases h
    · simp only [Option.some.injEq, Prod.mk.injEq] at h
      rw [← h.2]

theorem directive_length (p : Printer) (rest : List Char) (args : List Arg) (o : List Char)
    (args' : List Arg) (rest' : List Char)
    (h : directive p rest args = .ok (o, args', rest')) : rest'.length < rest.length := by
  unfold directive at h
  cases rest with
  | nil => cases h
  | cons d ds =>
    dsimp only at h
    cases hf : parseField (d :: ds) with
    | none => rw [hf] at h; cases h
    | some fa =>
      obtain ⟨f, after⟩ := fa
      rw [hf] at h
      cases f with
      | none =>
        dsimp only at h
        cases hd : doDispatch p d (argument args) with
        | error e => rw [hd] at h; cases h
        | ok r =>
          rw [hd] at h
          simp only [Except.map, Except.ok.injEq, Prod.mk.injEq] at h
          rw [← h.2.2]
          simp
      | some field =>
        dsimp only at h
        have hl : after.length ≤ (d :: ds).length := by
          unfold parseField at hf
          split at hf
          · unfold parseInteger at hf
            dsimp only at hf
            split at hf
            · cases hf
            · rename_i r rest hloop
              split at hf
              · cases hf
              · simp only [Option.some.injEq, Prod.mk.injEq] at hf
                rw [← hf.2]
                have := fieldLoop_length _ _ _ _ hloop
                refine Nat.le_trans this ?_
                split <;> simp
          · cases hf
        cases after with
        | nil => cases h
        | cons d' ds' =>
          dsimp only at h
          cases hd : doDispatch p d' (argument args) with
          | error e => rw [hd] at h; cases h
          | ok r =>
            rw [hd] at h
            simp only [Except.map, Except.ok.injEq, Prod.mk.injEq] at h
            rw [← h.2.2]
            simp only [List.length_cons] at hl ⊢
            omega

theorem skipTo_length (cs : List Char) : (skipTo cs).2.length ≤ cs.length := by
  induction cs with
  | nil => simp [skipTo]
  | cons c cs ih =>
    unfold skipTo
    split
    · simp
    · simp only [List.length_cons]
      omega

/-- Write before. -/
def Res.after (t : List Char) (r : Res) : Res := ⟨t ++ r.out, r.err⟩

theorem formatLoop_out (p : Printer) : ∀ (fuel : Nat) (cs : List Char) (args : List Arg) (out : List Char),
    formatLoop p fuel cs args out = (formatLoop p fuel cs args []).after out
  | 0, cs, args, out => by simp [formatLoop, Res.after]
  | fuel + 1, cs, args, out => by
    unfold formatLoop
    split
    · simp [Res.after]
    · split
      · simp [Res.after]
      · split
        · rw [formatLoop_out p fuel _ _ (out ++ _ ++ _), formatLoop_out p fuel _ _ ([] ++ _ ++ _)]
          simp [Res.after]
        · split
          · simp [Res.after]
          · rw [formatLoop_out p fuel _ _ (out ++ _ ++ _), formatLoop_out p fuel _ _ ([] ++ _ ++ _)]
            simp [Res.after]

theorem formatLoop_fuel (p : Printer) : ∀ (n : Nat) (cs : List Char), cs.length ≤ n →
    ∀ (f1 f2 : Nat), cs.length ≤ f1 → cs.length ≤ f2 → ∀ (args : List Arg) (out : List Char),
      formatLoop p f1 cs args out = formatLoop p f2 cs args out
  | n, [], _, f1, f2, _, _, args, out => by
    cases f1 <;> cases f2 <;> simp [formatLoop]
  | 0, c :: cs, h, _, _, _, _, _, _ => by simp at h
  | n + 1, c :: cs, h, 0, f2, h1, h2, args, out => by simp at h1
  | n + 1, c :: cs, h, f1 + 1, 0, h1, h2, args, out => by simp at h2
  | n + 1, c :: cs, h, f1 + 1, f2 + 1, h1, h2, args, out => by
    unfold formatLoop
    have hs := skipTo_length (c :: cs)
    cases hr : (skipTo (c :: cs)).2 with
    | nil => rfl
    | cons d rest =>
      rw [hr] at hs
      simp only [List.length_cons] at hs h h1 h2
      dsimp only
      split
      · rfl
      · split
        · exact formatLoop_fuel p n rest (by omega) f1 f2 (by omega) (by omega) _ _
        · cases hd : directive p rest args with
          | error e => rfl
          | ok r =>
            obtain ⟨o, args', rest'⟩ := r
            have := directive_length p rest args o args' rest' hd
            exact formatLoop_fuel p n rest' (by omega) f1 f2 (by omega) (by omega) _ _

theorem format_nil (p : Printer) (args : List Arg) : format p [] args = ⟨[], none⟩ := rfl

theorem format_fuel (p : Printer) (cs : List Char) (args : List Arg) (fuel : Nat) (out : List Char)
    (h : cs.length ≤ fuel) : formatLoop p fuel cs args out = (format p cs args).after out := by
  rw [formatLoop_out, formatLoop_fuel p cs.length cs (Nat.le_refl _) fuel cs.length h (Nat.le_refl _)]
  rfl

theorem format_directive (p : Printer) (rest : List Char) (args : List Arg) :
    format p ('%' :: rest) args =
      match directive p rest args with
      | .error e => ⟨[], some e⟩
      | .ok (o, args', rest') => (format p rest' args').after o := by
  unfold format
  simp only [List.length_cons]
  rw [formatLoop]
  simp only [skipTo, true_or, ↓reduceIte, List.isEmpty_cons, Bool.false_eq_true]
  rw [if_neg (by decide)]
  cases hd : directive p rest args with
  | error e => rfl
  | ok r =>
    obtain ⟨o, args', rest'⟩ := r
    have := directive_length p rest args o args' rest' hd
    dsimp only
    rw [format_fuel p rest' args' _ _ (by omega)]
    rfl

theorem format_text (p : Printer) (c : Char) (cs : List Char) (args : List Arg) (hc : c ≠ '%') :
    format p (c :: cs) args = (format p cs args).after [c] := by
  by_cases hn : c = '\n'
  · subst hn
    show formatLoop p (cs.length + 1) ('\n' :: cs) args [] = _
    rw [formatLoop]
    simp only [skipTo, or_true, ↓reduceIte, List.isEmpty_cons, Bool.false_eq_true]
    rw [format_fuel p cs args _ _ (Nat.le_refl _)]
    rfl
  · show formatLoop p (cs.length + 1) (c :: cs) args [] = _
    rw [formatLoop]
    simp only [skipTo, hc, hn, or_self, ↓reduceIte, List.isEmpty_cons, Bool.false_eq_true]
    cases cs with
    | nil => rfl
    | cons d ds =>
      unfold format
      simp only [List.length_cons]
      conv => rhs; rw [formatLoop]
      have hs := skipTo_length (d :: ds)
      cases hr : (skipTo (d :: ds)).2 with
      | nil => simp [Res.after]
      | cons e rest =>
        rw [hr] at hs
        simp only [List.length_cons] at hs
        dsimp only
        simp only [List.isEmpty_cons, Bool.false_eq_true, ↓reduceIte]
        split
        · rw [format_fuel p rest _ _ _ (by omega), format_fuel p rest _ _ _ (by omega)]
          simp [Res.after]
        · cases hd : directive p rest args with
          | error e => simp [Res.after]
          | ok r =>
            obtain ⟨o, args', rest'⟩ := r
            have := directive_length p rest args o args' rest' hd
            dsimp only
            rw [format_fuel p rest' _ _ _ (by omega), format_fuel p rest' _ _ _ (by omega)]
            simp [Res.after]

end Verif.Format
