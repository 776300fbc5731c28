import Verif.Integer.Number
import Verif.Integer.Lemmas
import Mathlib.Data.Int.GCD
import Mathlib.RingTheory.Coprime.Lemmas
import Mathlib.Tactic.Linarith
/-
Helper lemmas about `^`, `gcd`, `lcm`.
-/
namespace Verif.Integer

theorem checked_ok {n : Int} (h : InRange n) : checked n = .ok n := if_pos h
theorem checked_overflow {n : Int} (h : ¬ InRange n) : checked n = .overflow := if_neg h

/-! ### Power -/

/-- A nonnegative number above a representable bound is not representable. -/
theorem not_inRange_of_le {a b : Int} (h0 : 0 ≤ a) (h : ¬ InRange a) (hab : a ≤ b) :
    ¬ InRange b := by
  rintro ⟨h1, h2⟩
  exact h ⟨by omega, by omega⟩

theorem powerLoop_eq (p : Nat) : ∀ (b x : Int), 0 ≤ b → 0 ≤ x → InRange x →
    (x = 0 → b = 0 ∨ p = 0) →
    powerLoop b p x = checked (x * b ^ p) := by
  induction p using Nat.strong_induction_on with
  | _ p ih =>
    intro b x hb hx hxr hx0
    rw [powerLoop]
    by_cases hp : p = 0
    · subst hp
      rw [dif_pos rfl, pow_zero, mul_one, checked_ok hxr]
    · rw [dif_neg hp]
      have hdm := Nat.div_add_mod p 2
      have hpow : b ^ p = (b * b) ^ (p / 2) * b ^ (p % 2) := by
        rw [← pow_two, ← pow_mul, ← pow_add, hdm]
      have hbb : 0 ≤ b * b := mul_nonneg hb hb
      by_cases hb0 : b = 0
      · subst hb0
        have h0r : InRange 0 := ⟨by norm_num, by norm_num⟩
        have h1 : (if p > 1 then mulI 0 0 else Out.ok (0 : Int)) = .ok 0 := by
          split
          · rw [mulI, mul_zero, checked_ok h0r]
          · rfl
        rw [h1, bind_ok, zero_pow hp, mul_zero, checked_ok h0r]
        by_cases hodd : p % 2 = 1
        · rw [if_pos hodd, mulI, zero_mul, checked_ok h0r, bind_ok,
            ih (p / 2) (by omega) 0 0 le_rfl le_rfl h0r (fun _ => Or.inl rfl), zero_mul, checked_ok h0r]
        · rw [if_neg hodd, bind_ok, ih (p / 2) (by omega) 0 x le_rfl hx hxr (fun _ => Or.inl rfl),
            zero_pow (by omega), mul_zero, checked_ok h0r]
      · have hx1 : 1 ≤ x := by
          rcases Nat.eq_zero_or_pos p with h | h
          · exact absurd h hp
          · by_contra hc
            have : x = 0 := by omega
            rcases hx0 this with h | h
            · exact hb0 h
            · exact hp h
        have hb1 : 1 ≤ b := by omega
        have hpow1 : ∀ k : Nat, (1 : Int) ≤ b ^ k := fun k => one_le_pow₀ hb1
        have hpow2 : ∀ k : Nat, (1 : Int) ≤ (b * b) ^ k := fun k => one_le_pow₀ (by nlinarith)
        by_cases hp1 : p > 1
        · rw [if_pos hp1]
          by_cases hr : InRange (b * b)
          · rw [mulI, checked_ok hr, bind_ok]
            by_cases hodd : p % 2 = 1
            · rw [if_pos hodd]
              have e : x * b ^ p = b * x * (b * b) ^ (p / 2) := by
                rw [hpow, hodd, pow_one]; ring
              by_cases hr2 : InRange (b * x)
              · rw [mulI, checked_ok hr2, bind_ok, ih (p / 2) (by omega) _ _ hbb
                  (mul_nonneg hb hx) hr2 (by intro h; nlinarith), e]
              · rw [mulI, checked_overflow hr2, bind_overflow, e, checked_overflow]
                apply not_inRange_of_le (mul_nonneg hb hx) hr2
                nlinarith [hpow2 (p / 2), mul_nonneg hb hx]
            · rw [if_neg hodd, bind_ok, ih (p / 2) (by omega) _ _ hbb hx hxr (by intro h; omega)]
              have : p % 2 = 0 := by omega
              rw [hpow, this, pow_zero, mul_one]
          · rw [mulI, checked_overflow hr, bind_overflow, checked_overflow]
            apply not_inRange_of_le hbb hr
            have h2 : b * b ≤ b ^ p := by
              rw [← pow_two]; exact pow_le_pow_right₀ hb1 (by omega)
            nlinarith [hpow1 p]
        · have hp1 : p = 1 := by omega
          subst hp1
          rw [if_neg (by omega), bind_ok, if_pos rfl, pow_one]
          rw [mul_comm x b]
          by_cases hr2 : InRange (b * x)
          · rw [mulI, checked_ok hr2, bind_ok, powerLoop]; rfl
          · rw [mulI, checked_overflow hr2, bind_overflow]

theorem inRange_one : InRange 1 := ⟨by norm_num, by norm_num⟩

theorem powerNonneg_eq {b : Int} (hb : 0 ≤ b) (hr : InRange b) (p : Nat) :
    powerNonneg b p = checked (b ^ p) := by
  rw [powerNonneg]
  by_cases h2 : b = 2
  · subst h2; rw [if_pos rfl, ashLeftI, one_mul]
  · rw [if_neg h2]
    have hdm := Nat.div_add_mod p 2
    have hpow : b ^ p = (if p % 2 = 1 then b else 1) * (b * b) ^ (p / 2) := by
      rw [← pow_two, ← pow_mul]
      split
      · rename_i h
        rw [← pow_succ']; congr 1; omega
      · rw [one_mul]; congr 1; omega
    have hx : 0 ≤ (if p % 2 = 1 then b else 1) := by split <;> omega
    have hxr : InRange (if p % 2 = 1 then b else 1) := by
      split
      · exact hr
      · exact inRange_one
    by_cases hp : p > 1
    · rw [if_pos hp]
      by_cases hbb : InRange (b * b)
      · rw [mulI, checked_ok hbb, bind_ok, powerLoop_eq _ _ _ (mul_nonneg hb hb) hx hxr, hpow]
        intro h
        left
        split at h
        · rw [h, mul_zero]
        · omega
      · rw [mulI, checked_overflow hbb, bind_overflow, checked_overflow]
        apply not_inRange_of_le (mul_nonneg hb hb) hbb
        rw [← pow_two]
        rcases Nat.eq_zero_or_pos b.toNat with h | h
        · have : b = 0 := by omega
          subst this; exact absurd (by rw [mul_zero]; exact ⟨by norm_num, by norm_num⟩) hbb
        · exact pow_le_pow_right₀ (by omega) (by omega)
    · rw [if_neg hp, bind_ok]
      have : p / 2 = 0 := by omega
      rw [this, powerLoop, dif_pos rfl, hpow, this, pow_zero, mul_one, checked_ok hxr]

/-! ### gcd -/

theorem gcdHalve_spec (n : Nat) : ∀ (k : Nat) (u v : Int), u.natAbs + v.natAbs ≤ n →
    0 < u → 0 < v →
    ∃ j u' v', gcdHalve k u v = .ok (k + j, u', v') ∧ u = u' * 2 ^ j ∧ v = v' * 2 ^ j ∧
      0 < u' ∧ 0 < v' ∧ (u' % 2 = 1 ∨ v' % 2 = 1) := by
  induction n with
  | zero => intro k u v h hu hv; omega
  | succ n ih =>
    intro k u v h hu hv
    rw [gcdHalve]
    by_cases hodd : u % 2 = 1 ∨ v % 2 = 1
    · rw [dif_pos hodd]
      exact ⟨0, u, v, rfl, by simp, by simp, hu, hv, hodd⟩
    · rw [dif_neg hodd, dif_neg (by omega)]
      push Not at hodd
      obtain ⟨j, u', v', e, e1, e2, h1, h2, h3⟩ :=
        ih (k + 1) (u / 2) (v / 2) (by omega) (by omega) (by omega)
      refine ⟨j + 1, u', v', ?_, ?_, ?_, h1, h2, h3⟩
      · rw [e]; congr 2; omega
      · have : u = u / 2 * 2 := by omega
        rw [this, e1]; ring
      · have : v = v / 2 * 2 := by omega
        rw [this, e2]; ring

theorem gcd_half_left {a b : Int} (ha : a % 2 = 0) (hb : b % 2 = 1) :
    Int.gcd (a / 2) b = Int.gcd a b := by
  have e : a = 2 * (a / 2) := by omega
  conv_rhs => rw [e]
  symm
  apply Int.gcd_mul_right_left_of_gcd_eq_one
  rw [Int.gcd_comm]
  have : IsCoprime b 2 := ⟨1, -(b / 2), by omega⟩
  exact Int.isCoprime_iff_gcd_eq_one.mp this

theorem gcd_sub_left' (u v : Int) : Int.gcd (u - v) v = Int.gcd u v := by
  exact Int.gcd_sub_right_left_of_dvd u (dvd_refl v)

/-- The state between rounds of the inner loop: the pending value `tmp` and the
value it does not replace have the wanted gcd. -/
def GcdInv (g : Nat) (tmp u v : Int) : Prop :=
  (0 < tmp ∧ v % 2 = 1 ∧ 0 < v ∧ Int.gcd tmp v = g) ∨
  (tmp < 0 ∧ u % 2 = 1 ∧ 0 < u ∧ Int.gcd (-tmp) u = g)

theorem gcdLoop_spec (k g : Nat) (n : Nat) : ∀ (tmp u v : Int),
    tmp.natAbs + (if 0 < tmp then v else u).natAbs ≤ n →
    GcdInv g tmp u v → (-2 ^ 61 < tmp ∧ tmp < 2 ^ 61) → (if 0 < tmp then v else u) < 2 ^ 61 →
    InRange (g * 2 ^ k) →
    ∃ N, ∀ fuel, N ≤ fuel → gcdLoop k fuel tmp u v = .ok (g * 2 ^ k) := by
  induction n with
  | zero =>
    intro tmp u v h hinv
    rcases hinv with ⟨h1, _⟩ | ⟨h1, _⟩ <;> omega
  | succ n ih =>
    intro tmp u v h hinv ht hb hg
    -- a step with both current values odd and in range
    have step : ∀ u' v' : Int, u' % 2 = 1 → v' % 2 = 1 → 0 < u' → 0 < v' → Int.gcd u' v' = g →
        u'.natAbs + v'.natAbs ≤ n + 1 → u' < 2 ^ 61 → v' < 2 ^ 61 →
        ∃ N, ∀ fuel, N ≤ fuel → (do
          let tmp ← subI u' v'
          if tmp = 0 then ashLeftI u' k else gcdLoop k fuel (tmp / 2) u' v') = .ok ((g : Int) * 2 ^ k) := by
      intro u' v' ou ov pu pv hgcd hn bu bv
      have hr : InRange (u' - v') := ⟨by omega, by omega⟩
      by_cases heq : u' - v' = 0
      · refine ⟨0, fun fuel _ => ?_⟩
        rw [subI, checked_ok hr, bind_ok, if_pos heq]
        have : u' = v' := by omega
        subst this
        rw [Int.gcd_self] at hgcd
        have : u' = g := by omega
        rw [this, ashLeftI, checked_ok hg]
      · obtain ⟨N, hN⟩ := ih ((u' - v') / 2) u' v'
          (by split <;> omega)
          (by
            rcases lt_or_gt_of_ne heq with hlt | hgt
            · right
              refine ⟨by omega, ou, pu, ?_⟩
              have e : -((u' - v') / 2) = (v' - u') / 2 := by omega
              rw [e, gcd_half_left (by omega) ou, gcd_sub_left', Int.gcd_comm, hgcd]
            · left
              refine ⟨by omega, ov, pv, ?_⟩
              rw [gcd_half_left (by omega) ov, gcd_sub_left', hgcd])
          ⟨by omega, by omega⟩ (by split <;> omega) hg
        refine ⟨N, fun fuel hf => ?_⟩
        rw [subI, checked_ok hr, bind_ok, if_neg heq, hN fuel hf]
    by_cases hodd : tmp % 2 = 1
    · rcases hinv with ⟨h1, h2, h3, h4⟩ | ⟨h1, h2, h3, h4⟩
      · rw [if_pos h1] at h hb
        obtain ⟨N, hN⟩ := step tmp v hodd h2 h1 h3 h4 (by omega) ht.2 hb
        refine ⟨N + 1, fun fuel hf => ?_⟩
        obtain ⟨f, rfl⟩ : ∃ f, fuel = f + 1 := ⟨fuel - 1, by omega⟩
        rw [gcdLoop, if_pos hodd, if_pos h1, bind_ok]
        exact hN f (by omega)
      · rw [if_neg (by omega)] at h hb
        obtain ⟨N, hN⟩ := step u (-tmp) h2 (by omega) h3 (by omega)
          (by rw [Int.gcd_comm]; exact h4) (by omega) hb (by omega)
        refine ⟨N + 1, fun fuel hf => ?_⟩
        obtain ⟨f, rfl⟩ : ∃ f, fuel = f + 1 := ⟨fuel - 1, by omega⟩
        rw [gcdLoop, if_pos hodd, if_neg (by omega), negI, checked_ok ⟨by omega, by omega⟩,
          bind_ok, bind_ok]
        exact hN f (by omega)
    · have heven : tmp % 2 = 0 := by omega
      obtain ⟨N, hN⟩ := ih (tmp / 2) u v
        (by
          rcases hinv with ⟨h1, _⟩ | ⟨h1, _⟩
          · rw [if_pos h1] at h; rw [if_pos (by omega)]; omega
          · rw [if_neg (by omega)] at h; rw [if_neg (by omega)]; omega)
        (by
          rcases hinv with ⟨h1, h2, h3, h4⟩ | ⟨h1, h2, h3, h4⟩
          · left; exact ⟨by omega, h2, h3, by rw [gcd_half_left heven h2, h4]⟩
          · right
            refine ⟨by omega, h2, h3, ?_⟩
            have e : -(tmp / 2) = (-tmp) / 2 := by omega
            rw [e, gcd_half_left (by omega) h2, h4])
        ⟨by omega, by omega⟩
        (by
          rcases hinv with ⟨h1, _⟩ | ⟨h1, _⟩
          · rw [if_pos h1] at hb; rw [if_pos (by omega)]; exact hb
          · rw [if_neg (by omega)] at hb; rw [if_neg (by omega)]; exact hb)
        hg
      refine ⟨N + 1, fun fuel hf => ?_⟩
      obtain ⟨f, rfl⟩ : ∃ f, fuel = f + 1 := ⟨fuel - 1, by omega⟩
      rw [gcdLoop, if_neg hodd, hN f (by omega)]

theorem gcd_general {n m : Int} (hn : InRange n) (hm : InRange m) (hn' : n ≠ -2 ^ 61)
    (hm' : m ≠ -2 ^ 61) (h0 : n ≠ 0) (h1 : m ≠ 0) (h2 : n ≠ m) :
    ∃ N, ∀ fuel, N ≤ fuel → gcd fuel n m = .ok (Int.gcd n m) := by
  obtain ⟨a1, a2⟩ := hn
  obtain ⟨b1, b2⟩ := hm
  have en : |n| = (n.natAbs : Int) := Int.abs_eq_natAbs n
  have em : |m| = (m.natAbs : Int) := Int.abs_eq_natAbs m
  obtain ⟨j, u, v, e, e1, e2, pu, pv, hodd⟩ :=
    gcdHalve_spec _ 0 (n.natAbs : Int) (m.natAbs : Int) le_rfl (by omega) (by omega)
  have hpos : (0 : Int) < 2 ^ j := by positivity
  have hu : u ≤ n.natAbs := by rw [e1]; nlinarith
  have hv : v ≤ m.natAbs := by rw [e2]; nlinarith
  have hgcd : (Int.gcd n m : Int) = Int.gcd u v * 2 ^ j := by
    have : Int.gcd n m = Int.gcd (n.natAbs : Int) (m.natAbs : Int) := by
      rfl
    rw [this, e1, e2, Int.gcd_mul_right]
    rw [Int.natAbs_pow]
    push_cast
    rfl
  have hgle : (Int.gcd n m : Int) ≤ n.natAbs := by
    have := Nat.le_of_dvd (by omega) (Int.gcd_dvd_natAbs_left n m)
    omega
  have hginr : InRange ((Int.gcd u v : Int) * 2 ^ j) := by
    rw [← hgcd]; constructor <;> omega
  by_cases hu1 : u % 2 = 1
  · obtain ⟨N, hN⟩ := gcdLoop_spec j (Int.gcd u v) _ (-v) u v le_rfl
      (Or.inr ⟨by omega, hu1, pu, by rw [neg_neg, Int.gcd_comm]⟩) ⟨by omega, by omega⟩
      (by rw [if_neg (by omega)]; omega) hginr
    refine ⟨N, fun fuel hf => ?_⟩
    rw [gcd, if_neg h0, if_neg h1, if_neg h2, absI, en, checked_ok ⟨by omega, by omega⟩, bind_ok,
      absI, em, checked_ok ⟨by omega, by omega⟩, bind_ok, e, bind_ok]
    simp only [hu1, if_true, zero_add]
    rw [negI, checked_ok ⟨by omega, by omega⟩, bind_ok, hN fuel hf, hgcd]
  · have hv1 : v % 2 = 1 := by omega
    obtain ⟨N, hN⟩ := gcdLoop_spec j (Int.gcd u v) _ (u / 2) u v le_rfl
      (Or.inl ⟨by omega, hv1, pv, by rw [gcd_half_left (by omega) hv1]⟩) ⟨by omega, by omega⟩
      (by rw [if_pos (by omega)]; omega) hginr
    refine ⟨N, fun fuel hf => ?_⟩
    rw [gcd, if_neg h0, if_neg h1, if_neg h2, absI, en, checked_ok ⟨by omega, by omega⟩, bind_ok,
      absI, em, checked_ok ⟨by omega, by omega⟩, bind_ok, e, bind_ok]
    simp only [hu1, if_false, zero_add, bind_ok]
    rw [hN fuel hf, hgcd]

end Verif.Integer
