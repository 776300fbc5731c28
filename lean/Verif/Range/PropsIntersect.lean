import Verif.Range.Intersect
import Verif.Integer.Props
/-
C11: the intersection of two ranges.
-/
namespace Verif.Range

private theorem member_contains {r : Rng} (hp : Proper r) (v : Int) (hr : ∀ f s, r ≠ .constant f s) :
    member v r = true ↔ Contains r v := by
  have key : ∀ f b : Int, b ≠ 0 → ∀ k : Int, ((v - f).tmod b = 0 ∧ (v - f).tdiv b = k) ↔ v = f + k * b := by
    intro f b hb k
    constructor
    · rintro ⟨h1, h2⟩
      have := Int.tmod_add_mul_tdiv (v - f) b
      rw [h1, h2] at this
      have : b * k = k * b := mul_comm _ _
      omega
    · intro h
      have : v - f = b * k := by rw [mul_comm]; omega
      rw [this]
      exact ⟨Int.mul_tmod_right .., Int.mul_tdiv_cancel_left _ hb⟩
  cases r with
  | empty => simp [member, findKey, not_contains_empty]
  | constant f s => exact absurd rfl (hr f s)
  | infinite f b =>
    have hb : b ≠ 0 := hp
    have e : member v (.infinite f b) = true ↔ (v - f).tmod b = 0 ∧ 0 ≤ (v - f).tdiv b := by
      have : findKey v (.infinite f b) =
        if (v - f).tmod b = 0 ∧ 0 ≤ (v - f).tdiv b then some ((v - f).tdiv b) else none := rfl
      unfold member
      rw [this]
      split <;> simp_all
    rw [e, contains_infinite]
    constructor
    · rintro ⟨h1, h2⟩
      exact ⟨_, h2, (key f b hb _).mp ⟨h1, rfl⟩⟩
    · rintro ⟨k, h0, hk⟩
      have := (key f b hb k).mpr hk
      exact ⟨this.1, by omega⟩
  | finite f b n =>
    have hb : b ≠ 0 := hp.1
    have e : member v (.finite f b n) = true ↔
        (v - f).tmod b = 0 ∧ 0 ≤ (v - f).tdiv b ∧ (v - f).tdiv b < n := by
      have : findKey v (.finite f b n) = if (v - f).tmod b = 0 ∧ 0 ≤ (v - f).tdiv b ∧ (v - f).tdiv b < n
        then some ((v - f).tdiv b) else none := rfl
      unfold member
      rw [this]
      split <;> simp_all
    rw [e, contains_finite]
    constructor
    · rintro ⟨h1, h2, h3⟩
      exact ⟨_, h2, h3, (key f b hb _).mp ⟨h1, rfl⟩⟩
    · rintro ⟨k, h0, h1, hk⟩
      have := (key f b hb k).mpr hk
      exact ⟨this.1, by omega, by omega⟩

private theorem constant_good {v : Int} {r : Rng} (hp : Proper r) (hr : ∀ f s, r ≠ .constant f s) (P : Int → Prop)
    (hP : ∀ x, P x ↔ x = v) : Good (constantIntersection v r) (fun x => P x ∧ Contains r x) := by
  unfold constantIntersection
  split
  · rename_i h
    rw [member_contains hp v hr] at h
    refine ⟨.finite v 1 1, rfl, ⟨by omega, by omega⟩, by simp [NotHollow], ?_⟩
    intro x
    beta_reduce
    rw [contains_finite, hP]
    constructor
    · rintro ⟨k, h0, h1, rfl⟩
      obtain rfl : k = 0 := by omega
      simpa using h
    · rintro ⟨rfl, -⟩
      exact ⟨0, by omega, by omega, by ring⟩
  · rename_i h
    apply good_empty
    rintro x ⟨h1, h2⟩
    rw [hP] at h1; subst h1
    exact h ((member_contains hp x hr).mpr h2)

private theorem Good.swap {o : Out Rng} {P Q : Int → Prop} (h : Good o (fun x => P x ∧ Q x)) :
    Good o (fun x => Q x ∧ P x) := by
  obtain ⟨r, h1, h2, h3, h4⟩ := h
  exact ⟨r, h1, h2, h3, fun x => (h4 x).trans and_comm⟩

private theorem Good.iff {o : Out Rng} {P Q : Int → Prop} (h : Good o P) (hPQ : ∀ x, P x ↔ Q x) : Good o Q := by
  obtain ⟨r, h1, h2, h3, h4⟩ := h
  exact ⟨r, h1, h2, h3, fun x => (h4 x).trans (hPQ x)⟩

/-- The last term that can matter of an infinite range, against a range with the given ends. -/
private theorem lastOfIn_facts {f b lo hi : Int} (hb : b ≠ 0) (bound : Int)
    (hbound : bound = if b < 0 then lo else hi) :
    let t := (truncDiv (bound - f) b).1 * b + f
    b ∣ t - f ∧
    (lo ≤ hi → ¬ (highEnd f b t < lo ∨ hi < lowEnd f b t) → lowEnd f b t ≤ highEnd f b t) ∧
    (∀ x, lo ≤ x → x ≤ hi → (Between (lowEnd f b t) |b| (highEnd f b t) x ↔ Contains (.infinite f b) x)) := by
  intro t
  obtain ⟨h1, h2, h3, h4, h5⟩ := last_term f b bound
  change b ∣ t - f at h1
  change 0 < b → f ≤ bound → f ≤ t ∧ ∀ x, x ≤ bound → f ≤ x → b ∣ x - f → x ≤ t at h2
  change b < 0 → bound ≤ f → t ≤ f ∧ ∀ x, bound ≤ x → x ≤ f → b ∣ x - f → t ≤ x at h4
  refine ⟨h1, ?_, ?_⟩
  · unfold lowEnd highEnd
    intro hlo hno
    by_cases h : b < 0
    · simp only [h, if_true] at hno hbound ⊢
      exact (h4 h (by omega)).1
    · simp only [h, if_false] at hno hbound ⊢
      exact (h2 (by omega) (by omega)).1
  · intro x hx1 hx2
    unfold lowEnd highEnd Between
    by_cases h : b < 0
    · simp only [h, if_true] at hbound ⊢
      rw [abs_of_neg h, contains_infinite_neg h, Int.neg_dvd]
      have shift : b ∣ x - t ↔ b ∣ x - f := by
        constructor
        · intro hd; have := Int.dvd_add hd h1; rwa [show x - t + (t - f) = x - f by ring] at this
        · intro hd; have := Int.dvd_sub hd h1; rwa [show x - f - (t - f) = x - t by ring] at this
      rw [shift]
      constructor
      · rintro ⟨⟨-, ha⟩, hd⟩; exact ⟨ha, hd⟩
      · rintro ⟨ha, hd⟩
        exact ⟨⟨(h4 h (by omega)).2 x (by omega) ha hd, ha⟩, hd⟩
    · simp only [h, if_false] at hbound ⊢
      rw [abs_of_pos (by omega), contains_infinite_pos (by omega)]
      constructor
      · rintro ⟨⟨ha, -⟩, hd⟩; exact ⟨ha, hd⟩
      · rintro ⟨ha, hd⟩
        exact ⟨⟨ha, (h2 (by omega) (by omega)).2 x (by omega) ha hd⟩, hd⟩

private theorem bound_eq {f b t b2 : Int} (hb : b ≠ 0) (hb2 : b2 ≠ 0) :
    (if sameSign b b2 then t else f) = if b2 < 0 then lowEnd f b t else highEnd f b t := by
  unfold sameSign lowEnd highEnd
  by_cases h1 : b < 0 <;> by_cases h2 : b2 < 0 <;>
    simp [h1, h2] <;> intros <;> omega

private theorem opposite_good {f1 b1 f2 b2 : Int} (hopp : (0 < b1 ∧ b2 < 0) ∨ (b1 < 0 ∧ 0 < b2)) :
    Good (finiteIntersection f1 b1 ((truncDiv (f2 - f1) b1).1 * b1 + f1) f2 b2 ((truncDiv (f1 - f2) b2).1 * b2 + f2))
      (fun x => Contains (.infinite f1 b1) x ∧ Contains (.infinite f2 b2) x) := by
  obtain ⟨h1a, h1b, -, h1d, -⟩ := last_term f1 b1 f2
  obtain ⟨h2a, h2b, -, h2d, -⟩ := last_term f2 b2 f1
  generalize (truncDiv (f2 - f1) b1).1 * b1 + f1 = t1 at *
  generalize (truncDiv (f1 - f2) b2).1 * b2 + f2 = t2 at *
  have shift : ∀ x b t f : Int, b ∣ t - f → (-b ∣ x - t ↔ b ∣ x - f) := by
    intro x b t f h
    rw [Int.neg_dvd]
    constructor
    · intro hd; have := Int.dvd_add hd h; rwa [show x - t + (t - f) = x - f by ring] at this
    · intro hd; have := Int.dvd_sub hd h; rwa [show x - f - (t - f) = x - t by ring] at this
  have hb1 : b1 ≠ 0 := by omega
  have hb2 : b2 ≠ 0 := by omega
  have G := finite_good (f1 := f1) (f2 := f2) hb1 hb2 h1a h2a
  rcases hopp with ⟨hp, hn⟩ | ⟨hn, hp⟩
  · have e1 : ¬ b1 < 0 := by omega
    simp only [lowEnd, highEnd, e1, hn, if_true, if_false, abs_of_pos hp, abs_of_neg hn] at G
    refine (G (fun hno => ?_)).iff (fun x => ?_)
    · have hle : f1 ≤ f2 := by omega
      exact ⟨(h1b hp hle).1, (h2d hn hle).1⟩
    · unfold Between
      rw [contains_infinite_pos hp, contains_infinite_neg hn, shift x b2 t2 f2 h2a]
      constructor
      · rintro ⟨⟨⟨ha, -⟩, hc⟩, ⟨⟨-, he⟩, hf⟩⟩
        exact ⟨⟨ha, hc⟩, ⟨he, hf⟩⟩
      · rintro ⟨⟨ha, hc⟩, ⟨he, hf⟩⟩
        have hle : f1 ≤ f2 := le_trans ha he
        exact ⟨⟨⟨ha, (h1b hp hle).2 x he ha hc⟩, hc⟩, ⟨⟨(h2d hn hle).2 x ha he hf, he⟩, hf⟩⟩
  · have e1 : ¬ b2 < 0 := by omega
    simp only [lowEnd, highEnd, e1, hn, if_true, if_false, abs_of_pos hp, abs_of_neg hn] at G
    refine (G (fun hno => ?_)).iff (fun x => ?_)
    · have hle : f2 ≤ f1 := by omega
      exact ⟨(h1d hn hle).1, (h2b hp hle).1⟩
    · unfold Between
      rw [contains_infinite_pos hp, contains_infinite_neg hn, shift x b1 t1 f1 h1a]
      constructor
      · rintro ⟨⟨⟨-, ha⟩, hc⟩, ⟨⟨he, -⟩, hf⟩⟩
        exact ⟨⟨ha, hc⟩, ⟨he, hf⟩⟩
      · rintro ⟨⟨ha, hc⟩, ⟨he, hf⟩⟩
        have hle : f2 ≤ f1 := le_trans he ha
        exact ⟨⟨⟨(h1d hn hle).2 x he ha hc, ha⟩, hc⟩, ⟨⟨he, (h2b hp hle).2 x ha he hf⟩, hf⟩⟩

/-- C11: the intersection of two ranges contains exactly the integers in both.  Missing: two unbounded
descending ranges with different steps (`intersection_violated`), and constant ranges of size 0 (see
`member_violated`). -/
theorem intersection_partial {r1 r2 : Rng} (h1 : Proper r1) (h2 : Proper r2) (hh1 : NotHollow r1)
    (hh2 : NotHollow r2)
    (hd : ∀ f1 b1 f2 b2, r1 = .infinite f1 b1 → r2 = .infinite f2 b2 → b1 < 0 → b2 < 0 → b1 = b2) :
    ∃ r, intersection r1 r2 = .ok r ∧ Proper r ∧ NotHollow r ∧
      ∀ x, Contains r x ↔ Contains r1 x ∧ Contains r2 x := by
  change Good (intersection r1 r2) (fun x => Contains r1 x ∧ Contains r2 x)
  cases r1 with
  | empty =>
    rw [show intersection .empty r2 = .ok .empty by cases r2 <;> rfl]
    exact good_empty (fun x h => not_contains_empty x h.1)
  | constant f1 s1 =>
    cases r2 with
    | empty => exact good_empty (fun x h => not_contains_empty x h.2)
    | constant f2 s2 =>
      simp only [intersection]
      have e1 := fun x => contains_constant (x := x) h1 hh1
      have e2 := fun x => contains_constant (x := x) h2 hh2
      split
      · rename_i he
        subst he
        have key : ∀ c : Bool, Good (if c = true then .ok (.constant f1 s1) else .ok (.constant f1 s2))
            (fun x => Contains (.constant f1 s1) x ∧ Contains (.constant f1 s2) x) := by
          intro c
          cases c
          · rw [if_neg (by simp)]; exact ⟨_, rfl, h2, hh2, fun x => by beta_reduce; rw [e1, e2]; simp⟩
          · rw [if_pos rfl]; exact ⟨_, rfl, h1, hh1, fun x => by beta_reduce; rw [e1, e2]; simp⟩
        exact key _
      · rename_i he
        exact good_empty (fun x h => by
          have ha := (e1 x).mp h.1
          have hb := (e2 x).mp h.2
          exact he (ha.symm.trans hb))
    | finite f2 b2 n2 =>
      exact constant_good h2 (by simp) _ (fun x => contains_constant h1 hh1)
    | infinite f2 b2 =>
      exact constant_good h2 (by simp) _ (fun x => contains_constant h1 hh1)
  | finite f1 b1 n1 =>
    cases r2 with
    | empty => exact good_empty (fun x h => not_contains_empty x h.2)
    | constant f2 s2 =>
      exact (constant_good h1 (by simp) _ (fun x => contains_constant h2 hh2)).swap
    | finite f2 b2 n2 =>
      have e1 := finite_ends (f := f1) (b := b1) h1.2
      have e2 := finite_ends (f := f2) (b := b2) h2.2
      refine (finite_good h1.1 h2.1 e1.2 e2.2 (fun _ => ⟨e1.1, e2.1⟩)).iff (fun x => ?_)
      rw [contains_finite_between h1.1, contains_finite_between h2.1]
    | infinite f2 b2 =>
      have hb2 : b2 ≠ 0 := h2
      have e1 := finite_ends (f := f1) (b := b1) h1.2
      have e2 := lastOfIn_facts (f := f2) hb2 _ (bound_eq (f := f1) (t := f1 + b1 * (n1 - 1)) h1.1 hb2)
      simp only at e2
      obtain ⟨e2a, e2b, e2c⟩ := e2
      refine (finite_good h1.1 hb2 e1.2 e2a
        (fun hno => ⟨e1.1, e2b e1.1 (fun h => hno (h.symm))⟩)).iff (fun x => ?_)
      rw [contains_finite_between h1.1]
      constructor
      · rintro ⟨ha, hb⟩; exact ⟨ha, (e2c x ha.1.1 ha.1.2).mp hb⟩
      · rintro ⟨ha, hb⟩; exact ⟨ha, (e2c x ha.1.1 ha.1.2).mpr hb⟩
  | infinite f1 b1 =>
    have hb1 : b1 ≠ 0 := h1
    cases r2 with
    | empty => exact good_empty (fun x h => not_contains_empty x h.2)
    | constant f2 s2 =>
      exact (constant_good h1 (by simp) _ (fun x => contains_constant h2 hh2)).swap
    | finite f2 b2 n2 =>
      have e1 := finite_ends (f := f2) (b := b2) h2.2
      have e2 := lastOfIn_facts (f := f1) hb1 _ (bound_eq (f := f2) (t := f2 + b2 * (n2 - 1)) h2.1 hb1)
      simp only at e2
      obtain ⟨e2a, e2b, e2c⟩ := e2
      refine (finite_good hb1 h2.1 e2a e1.2
        (fun hno => ⟨e2b e1.1 hno, e1.1⟩)).iff (fun x => ?_)
      rw [contains_finite_between h2.1]
      constructor
      · rintro ⟨ha, hb⟩; exact ⟨(e2c x hb.1.1 hb.1.2).mp ha, hb⟩
      · rintro ⟨ha, hb⟩; exact ⟨(e2c x hb.1.1 hb.1.2).mpr ha, hb⟩
    | infinite f2 b2 =>
      have hb2 : b2 ≠ 0 := h2
      simp only [intersection]
      by_cases hp : 0 < b1 ∧ 0 < b2
      · -- both ascending
        rw [if_pos (by simp [sameSign, hp.1, hp.2]), firstIntersection_pos hp.1]
        cases hF : firstPositive f1 b1 f2 b2 with
        | none =>
          apply good_empty
          rintro x ⟨hx1, hx2⟩
          rw [contains_infinite_pos hp.1] at hx1
          rw [contains_infinite_pos hp.2] at hx2
          exact firstPositive_none hp.1 hp.2 hF x hx1.1 hx2.1 ⟨hx1.2, hx2.2⟩
        | some F =>
          obtain ⟨hF1, hF2, hFc, hFm⟩ := firstPositive_some hp.1 hp.2 hF
          have hl := lcmI_gt hp.1 hp.2
          refine ⟨.infinite F (lcmI b1 b2), by simp [make, bound, hl.ne', hl], hl.ne', by simp [NotHollow], ?_⟩
          intro x
          beta_reduce
          rw [contains_infinite_pos hl, contains_infinite_pos hp.1, contains_infinite_pos hp.2, lcmI_dvd hp.1 hp.2]
          constructor
          · rintro ⟨ha, hb, hc⟩
            have hb := Int.dvd_add hb hFc.1
            have hc := Int.dvd_add hc hFc.2
            rw [show x - F + (F - f1) = x - f1 by ring] at hb
            rw [show x - F + (F - f2) = x - f2 by ring] at hc
            exact ⟨⟨by omega, hb⟩, ⟨by omega, hc⟩⟩
          · rintro ⟨⟨ha, hb⟩, ⟨hc, hd⟩⟩
            refine ⟨hFm x ha hc ⟨hb, hd⟩, ?_, ?_⟩
            · have := Int.dvd_sub hb hFc.1
              rwa [show x - f1 - (F - f1) = x - F by ring] at this
            · have := Int.dvd_sub hd hFc.2
              rwa [show x - f2 - (F - f2) = x - F by ring] at this
      · by_cases hn : b1 < 0 ∧ b2 < 0
        · -- both descending, with the same step
          obtain rfl := hd f1 b1 f2 b2 rfl rfl hn.1 hn.2
          rw [if_pos (by simp [sameSign, hn.1, show ¬ 0 < b1 by omega])]
          have hl : lcmI b1 b1 = b1 := by
            simp [lcmI, gcdI, hb1, truncDiv, Int.tdiv_self]
          cases hF : firstIntersection f1 b1 f2 b1 with
          | none =>
            apply good_empty
            rintro x ⟨hx1, hx2⟩
            rw [contains_infinite_neg hn.1] at hx1 hx2
            exact firstIntersection_neg_none hn.1 hn.1 hF x hx1.1 hx2.1 ⟨hx1.2, hx2.2⟩
          | some F =>
            obtain ⟨hF1, hF2, hFc, hFm⟩ := firstIntersection_neg_some hn.1 hn.1 hF
            refine ⟨.infinite F b1, by simp [hl, make, bound, hb1, show ¬ 0 < b1 by omega], hb1,
              by simp [NotHollow], ?_⟩
            intro x
            simp only [contains_infinite_neg hn.1]
            constructor
            · rintro ⟨ha, hb⟩
              have hc := Int.dvd_add hb hFc.2
              have hb := Int.dvd_add hb hFc.1
              rw [show x - F + (F - f1) = x - f1 by ring] at hb
              rw [show x - F + (F - f2) = x - f2 by ring] at hc
              exact ⟨⟨by omega, hb⟩, ⟨by omega, hc⟩⟩
            · rintro ⟨⟨ha, hb⟩, ⟨hc, hd⟩⟩
              refine ⟨hFm x ha hc ⟨hb, hd⟩, ?_⟩
              have := Int.dvd_sub hb hFc.1
              rwa [show x - f1 - (F - f1) = x - F by ring] at this
        · -- opposite directions
          have hs1 : sameSign b1 b2 = false := by
            unfold sameSign; split <;> simp <;> omega
          have hs2 : sameSign b2 b1 = false := by
            unfold sameSign; split <;> simp <;> omega
          rw [hs1, if_neg (by simp)]
          simp only [lastOfIn, hs1, hs2, Bool.false_eq_true, if_false]
          exact opposite_good (by omega)

/-- Multiples of 4 and of 6 up to 30 and 40, and an unbounded descending range against a finite one. -/
example : intersection (.finite 0 4 8) (.finite 36 (-6) 7) = .ok (.finite 0 12 3) ∧
    intersection (.infinite 10 (-3)) (.finite 0 2 10) = .ok (.finite 4 6 2) ∧
    intersection (.finite 0 2 10) (.finite 1 2 10) = .ok .empty := by decide

example : ∃ r, intersection (.infinite 10 (-3)) (.infinite (-20) 7) = .ok r ∧
    ∀ x, Contains r x ↔ Contains (.infinite 10 (-3)) x ∧ Contains (.infinite (-20) 7) x := by
  obtain ⟨r, h1, -, -, h2⟩ := intersection_partial (r1 := .infinite 10 (-3)) (r2 := .infinite (-20) 7)
    (by simp [Proper]) (by simp [Proper]) (by simp [NotHollow]) (by simp [NotHollow])
    (by intro f1 b1 f2 b2 h1 h2; cases h1; cases h2; omega)
  exact ⟨r, h1, h2⟩

/-- The greatest common divisor used in the model of `lcm` is the one the code computes. -/
theorem gcdI_exact {n m : Int} (hn : Verif.Integer.InRange n) (hm : Verif.Integer.InRange m)
    (h4 : n ≠ -2 ^ 61 ∧ m ≠ -2 ^ 61) :
    ∃ N, ∀ fuel, N ≤ fuel → Verif.Integer.gcd fuel n m = .ok (gcdI n m) := by
  unfold gcdI
  by_cases h1 : n = 0
  · exact ⟨0, fun fuel _ => by rw [Verif.Integer.gcd, if_pos h1, if_pos h1]⟩
  by_cases h2 : m = 0
  · exact ⟨0, fun fuel _ => by rw [Verif.Integer.gcd, if_neg h1, if_pos h2, if_neg h1, if_pos h2]⟩
  by_cases h3 : n = m
  · exact ⟨0, fun fuel _ => by rw [Verif.Integer.gcd, if_neg h1, if_neg h2, if_pos h3, if_neg h1, if_neg h2, if_pos h3]⟩
  obtain ⟨N, hN⟩ := Verif.Integer.gcd_partial hn hm (by omega) (by omega) (by omega) (by omega)
  exact ⟨N, fun fuel hf => by rw [hN fuel hf, if_neg h1, if_neg h2, if_neg h3]⟩

/-- C11 fails for two unbounded descending ranges with different steps: the intersection of 0, -2, -4, …
and 0, -3, -6, … is computed as 0, 6, 12, …. -/
theorem intersection_violated :
    intersection (.infinite 0 (-2)) (.infinite 0 (-3)) = .ok (.infinite 0 6) ∧
    Contains (.infinite 0 6) 6 ∧ ¬ Contains (.infinite 0 (-2)) 6 ∧
    Contains (.infinite 0 (-2)) (-6) ∧ Contains (.infinite 0 (-3)) (-6) ∧ ¬ Contains (.infinite 0 6) (-6) := by
  refine ⟨by decide, ⟨1, by decide⟩, ?_, ⟨3, by decide⟩, ⟨2, by decide⟩, ?_⟩
  · rw [contains_infinite_neg (by omega)]; omega
  · rw [contains_infinite_pos (by omega)]; omega

end Verif.Range
