/-
Lemmas about dates.
-/
import Verif.Date.Spec

namespace Verif.Date

theorem leapYear_iff (y : Int) : leapYear y = true ↔ Leap y := by
  simp only [leapYear, Leap, Bool.and_eq_true, Bool.or_eq_true, decide_eq_true_eq]
  omega

/-- Days of a common year before the first of a month. -/
def before : List Int := [0, 0, 31, 59, 90, 120, 151, 181, 212, 243, 273, 304, 334]

theorem month_cases {m : Int} (h1 : 1 ≤ m) (h2 : m ≤ 12) :
    m = 1 ∨ m = 2 ∨ m = 3 ∨ m = 4 ∨ m = 5 ∨ m = 6 ∨ m = 7 ∨ m = 8 ∨ m = 9 ∨ m = 10 ∨ m = 11 ∨
      m = 12 := by omega

theorem daysInMonth_eq {m : Int} (y : Int) (h1 : 1 ≤ m) (h2 : m ≤ 12) :
    daysInMonth y m = monthLength y m := by
  have hl := leapYear_iff y
  by_cases h : Leap y
  · have hb : leapYear y = true := hl.2 h
    rcases month_cases h1 h2 with rfl | rfl | rfl | rfl | rfl | rfl | rfl | rfl | rfl | rfl | rfl |
      rfl <;> simp [daysInMonth, monthLength, hb, h, monthDays]
  · have hb : leapYear y = false := by
      cases e : leapYear y
      · rfl
      · exact absurd (hl.1 e) h
    rcases month_cases h1 h2 with rfl | rfl | rfl | rfl | rfl | rfl | rfl | rfl | rfl | rfl | rfl |
      rfl <;> simp [daysInMonth, monthLength, hb, h, monthDays]

/-- Days from the beginning of 1900 to the beginning of a year. -/
def yearStart (y : Int) : Int :=
  365 * (y - 1900) + (y - 1) / 4 - (y - 1) / 100 + (y - 1) / 400 - 460

theorem daysSince1900_eq {y m : Int} (d : Int) (h1 : 1 ≤ m) (h2 : m ≤ 12) :
    daysSince1900 y m d = yearStart y + (before[m.toNat]?).getD 0 +
      (if Leap y ∧ 2 < m then 1 else 0) + d - 1 := by
  have hl := leapYear_iff y
  unfold daysSince1900 yearStart
  by_cases hy : y < 1900
  · rw [if_pos hy, Int.tdiv_eq_ediv_of_nonneg (by omega), Int.tdiv_eq_ediv_of_nonneg (by omega),
      Int.tdiv_eq_ediv_of_nonneg (by omega)]
    by_cases h : Leap y
    · have hb : leapYear y = true := hl.2 h
      have h' := h
      unfold Leap at h'
      rcases month_cases h1 h2 with rfl | rfl | rfl | rfl | rfl | rfl | rfl | rfl | rfl | rfl |
        rfl | rfl <;> simp [daysInMonth, hb, h, monthDays, before] <;> omega
    · have hb : leapYear y = false := by
        cases e : leapYear y
        · rfl
        · exact absurd (hl.1 e) h
      have h' := h
      unfold Leap at h'
      rcases month_cases h1 h2 with rfl | rfl | rfl | rfl | rfl | rfl | rfl | rfl | rfl | rfl |
        rfl | rfl <;> simp [daysInMonth, hb, h, monthDays, before] <;> omega
  · by_cases h0 : y = 1900
    · subst h0
      have hb : leapYear 1900 = false := by decide
      have h : ¬ Leap 1900 := by decide
      rcases month_cases h1 h2 with rfl | rfl | rfl | rfl | rfl | rfl | rfl | rfl | rfl | rfl |
        rfl | rfl <;> simp [hb, h, monthDays, before] <;> omega
    rw [if_neg hy, Int.tdiv_eq_ediv_of_nonneg (by omega), Int.tdiv_eq_ediv_of_nonneg (by omega),
      Int.tdiv_eq_ediv_of_nonneg (by omega)]
    by_cases h : Leap y
    · have hb : leapYear y = true := hl.2 h
      have h' := h
      unfold Leap at h'
      rcases month_cases h1 h2 with rfl | rfl | rfl | rfl | rfl | rfl | rfl | rfl | rfl | rfl |
        rfl | rfl <;> simp [hb, h, monthDays, before] <;> omega
    · have hb : leapYear y = false := by
        cases e : leapYear y
        · rfl
        · exact absurd (hl.1 e) h
      have h' := h
      unfold Leap at h'
      rcases month_cases h1 h2 with rfl | rfl | rfl | rfl | rfl | rfl | rfl | rfl | rfl | rfl |
        rfl | rfl <;> simp [hb, h, monthDays, before] <;> omega

theorem yearStart_next (y : Int) : yearStart (y + 1) = yearStart y + if Leap y then 366 else 365 := by
  unfold yearStart
  by_cases h : Leap y <;> simp only [h, if_true, if_false] <;> unfold Leap at h <;> omega

/-- A month on: the day number is the same if the day of the month goes down by the length. -/
theorem days_month {y m : Int} (d : Int) (h1 : 1 ≤ m) (h2 : m < 12) :
    daysSince1900 y (m + 1) (d - daysInMonth y m) = daysSince1900 y m d := by
  rw [daysSince1900_eq _ (by omega) (by omega), daysSince1900_eq _ h1 (by omega),
    daysInMonth_eq _ h1 (by omega)]
  by_cases h : Leap y <;>
  rcases month_cases h1 (by omega) with rfl | rfl | rfl | rfl | rfl | rfl | rfl | rfl | rfl | rfl |
    rfl | rfl <;> simp [monthLength, h, before] <;> omega

theorem days_year {y : Int} (d : Int) :
    daysSince1900 (y + 1) 1 (d - daysInMonth y 12) = daysSince1900 y 12 d := by
  rw [daysSince1900_eq _ (by omega) (by omega), daysSince1900_eq _ (by omega) (by omega),
    daysInMonth_eq _ (by omega) (by omega), yearStart_next]
  by_cases h : Leap y <;> simp [monthLength, h, before] <;> omega

theorem days_add {y m : Int} (d k : Int) (h1 : 1 ≤ m) (h2 : m ≤ 12) :
    daysSince1900 y m (d + k) = daysSince1900 y m d + k := by
  rw [daysSince1900_eq _ h1 h2, daysSince1900_eq _ h1 h2]; omega

theorem monthLength_bounds (y m : Int) : 28 ≤ monthLength y m ∧ monthLength y m ≤ 31 := by
  unfold monthLength; split
  · split <;> omega
  · split <;> omega

/-- The number the code gives to a day. -/
def code (d : Day) : Int := daysSince1900 d.year d.month d.day

theorem code_next {d : Day} (h : d.Exists) : code d.next = code d + 1 := by
  obtain ⟨y, m, dd⟩ := d
  obtain ⟨h1, h2, h3, h4⟩ := h
  dsimp only at h1 h2 h3 h4
  have e := daysInMonth_eq y h1 h2
  unfold Day.next code
  dsimp only
  by_cases hd : dd < monthLength y m
  · rw [if_pos hd]; exact days_add _ _ h1 h2
  · rw [if_neg hd]
    have e0 : dd = daysInMonth y m := by omega
    by_cases hm : m < 12
    · rw [if_pos hm]
      have := days_month (y := y) (dd + 1) h1 hm
      rw [days_add _ _ h1 h2] at this
      rw [← this]
      dsimp only
      congr 1; omega
    · rw [if_neg hm]
      have em : m = 12 := by omega
      subst em
      have := days_year (y := y) (dd + 1)
      rw [days_add _ _ h1 h2] at this
      rw [← this]
      dsimp only
      congr 1; omega

theorem yearStart_add (y : Int) (k : Nat) : yearStart y + 365 * k ≤ yearStart (y + k) := by
  induction k with
  | zero => simp
  | succ k ih =>
    have := yearStart_next (y + k)
    rw [show y + ((k + 1 : Nat) : Int) = y + k + 1 by omega, this]
    split <;> omega

theorem code_before {a b : Day} (ha : a.Exists) (hb : b.Exists) (h : a.Before b) :
    code a < code b := by
  obtain ⟨y, m, d⟩ := a
  obtain ⟨y', m', d'⟩ := b
  obtain ⟨h1, h2, h3, h4⟩ := ha
  obtain ⟨g1, g2, g3, g4⟩ := hb
  unfold Day.Before at h
  dsimp only at h1 h2 h3 h4 g1 g2 g3 g4 h
  unfold code
  dsimp only
  rw [daysSince1900_eq _ h1 h2, daysSince1900_eq _ g1 g2]
  rcases h with h | ⟨rfl, h | ⟨rfl, h⟩⟩
  · have hs := yearStart_add (y + 1) (y' - (y + 1)).toNat
    rw [show y + 1 + ((y' - (y + 1)).toNat : Int) = y' by omega, yearStart_next] at hs
    have hlow : 0 ≤ (before[m'.toNat]?).getD 0 := by
      rcases month_cases g1 g2 with rfl | rfl | rfl | rfl | rfl | rfl | rfl | rfl | rfl | rfl |
        rfl | rfl <;> simp [before]
    have hhigh : (before[m.toNat]?).getD 0 + (if Leap y ∧ 2 < m then 1 else 0) + d ≤
        if Leap y then 366 else 365 := by
      by_cases h : Leap y <;>
      rcases month_cases h1 h2 with rfl | rfl | rfl | rfl | rfl | rfl | rfl | rfl | rfl | rfl |
        rfl | rfl <;> simp [before, h, monthLength] at * <;> omega
    have : (0 : Int) ≤ if Leap y' ∧ 2 < m' then 1 else 0 := by split <;> omega
    omega
  · by_cases hl : Leap y <;>
    rcases month_cases h1 h2 with rfl | rfl | rfl | rfl | rfl | rfl | rfl | rfl | rfl | rfl |
      rfl | rfl <;>
    rcases month_cases g1 g2 with rfl | rfl | rfl | rfl | rfl | rfl | rfl | rfl | rfl | rfl |
      rfl | rfl <;> first | omega | (simp [before, hl, monthLength] at * <;> omega)
  · omega

theorem day_trichotomy (a b : Day) : a = b ∨ a.Before b ∨ b.Before a := by
  obtain ⟨y, m, d⟩ := a
  obtain ⟨y', m', d'⟩ := b
  simp only [Day.mk.injEq, Day.Before]
  omega

theorem code_inj {a b : Day} (ha : a.Exists) (hb : b.Exists) (h : code a = code b) : a = b := by
  rcases day_trichotomy a b with h' | h' | h'
  · exact h'
  · have := code_before ha hb h'; omega
  · have := code_before hb ha h'; omega

theorem next_exists {d : Day} (h : d.Exists) : d.next.Exists := by
  obtain ⟨y, m, dd⟩ := d
  obtain ⟨h1, h2, h3, h4⟩ := h
  dsimp only at h1 h2 h3 h4
  unfold Day.next Day.Exists
  dsimp only
  by_cases hd : dd < monthLength y m
  · rw [if_pos hd]; dsimp only; omega
  · rw [if_neg hd]
    by_cases hm : m < 12
    · rw [if_pos hm]; have := monthLength_bounds y (m + 1); dsimp only; omega
    · rw [if_neg hm]; have := monthLength_bounds (y + 1) 1; dsimp only; omega

theorem prev_exists {d : Day} (h : d.Exists) : ∃ p : Day, p.Exists ∧ p.next = d := by
  obtain ⟨y, m, dd⟩ := d
  obtain ⟨h1, h2, h3, h4⟩ := h
  dsimp only at h1 h2 h3 h4
  by_cases hd : 1 < dd
  · refine ⟨⟨y, m, dd - 1⟩, ⟨h1, h2, by dsimp only; omega, by dsimp only; omega⟩, ?_⟩
    unfold Day.next
    dsimp only
    rw [if_pos (by omega), Int.sub_add_cancel]
  · have : dd = 1 := by omega
    subst this
    by_cases hm : 1 < m
    · have hb := monthLength_bounds y (m - 1)
      refine ⟨⟨y, m - 1, monthLength y (m - 1)⟩,
        ⟨by dsimp only; omega, by dsimp only; omega, by dsimp only; omega, Int.le_refl _⟩, ?_⟩
      unfold Day.next
      dsimp only
      rw [if_neg (by omega), if_pos (by omega), Int.sub_add_cancel]
    · have : m = 1 := by omega
      subst this
      have hb := monthLength_bounds (y - 1) 12
      refine ⟨⟨y - 1, 12, monthLength (y - 1) 12⟩,
        ⟨by dsimp only; omega, by dsimp only; omega, by dsimp only; omega, Int.le_refl _⟩, ?_⟩
      unfold Day.next
      dsimp only
      rw [if_neg (by omega), if_neg (by omega), Int.sub_add_cancel]

theorem first_exists : Day.Exists ⟨1900, 1, 1⟩ := by unfold Day.Exists; decide

theorem code_first : code ⟨1900, 1, 1⟩ = 0 := by decide

theorem code_numbering : Numbering code := ⟨code_first, fun _ h => code_next h⟩

theorem numbering_eq {number : Day → Int} (hn : Numbering number) (k : Nat) :
    ∀ d : Day, d.Exists → (code d).natAbs = k → number d = code d := by
  induction k with
  | zero =>
    intro d hd hk
    have : d = ⟨1900, 1, 1⟩ := code_inj hd first_exists (by rw [code_first]; omega)
    subst this
    rw [hn.1, code_first]
  | succ k ih =>
    intro d hd hk
    by_cases hpos : 0 < code d
    · obtain ⟨p, hp, rfl⟩ := prev_exists hd
      rw [code_next hp] at hk hpos ⊢
      rw [hn.2 p hp, ih p hp (by omega)]
    · have := ih d.next (next_exists hd) (by rw [code_next hd]; omega)
      rw [hn.2 d hd, code_next hd] at this
      omega

theorem numbering_code {number : Day → Int} (hn : Numbering number) {d : Day} (hd : d.Exists) :
    number d = code d := numbering_eq hn _ d hd rfl

/-! ### Points in time -/

/-- Seconds since 1900 as the code counts days. -/
def sec (d : Date) : Int :=
  daysSince1900 d.year d.month d.day * 86400 + d.hours * 3600 + d.minutes * 60 + d.seconds -
    d.zone * 60

theorem compute_spec (d : Date) :
    (computeUniversalTime d).1 * 86400 + (computeUniversalTime d).2 = sec d ∧
      0 ≤ (computeUniversalTime d).2 ∧ (computeUniversalTime d).2 < 86400 := by
  unfold computeUniversalTime sec
  dsimp only
  generalize daysSince1900 d.year d.month d.day = D
  split <;> dsimp only <;> omega

theorem carry_spec (low high base : Int) (hb : 0 < base) :
    (carry low high base).2 * base + (carry low high base).1 = high * base + low ∧
      0 ≤ (carry low high base).1 ∧ (carry low high base).1 < base := by
  unfold carry
  split
  · dsimp only; omega
  · dsimp only
    have h1 := Int.emod_nonneg low (by omega : base ≠ 0)
    have h2 := Int.emod_lt_of_pos low hb
    have h3 := Int.mul_ediv_add_emod low base
    rw [Int.add_mul]
    have : low / base * base = base * (low / base) := Int.mul_comm _ _
    omega

theorem rollForward_spec (fuel : Nat) : ∀ (y m d : Int), 1 ≤ m → m ≤ 12 → d ≤ fuel →
    ∃ y' m' d', rollForward fuel y m d = some (y', m', d') ∧ 1 ≤ m' ∧ m' ≤ 12 ∧
      d' ≤ daysInMonth y' m' ∧ daysSince1900 y' m' d' = daysSince1900 y m d ∧
      (d ≤ daysInMonth y m → d' = d ∧ m' = m ∧ y' = y) ∧ (1 ≤ d → 1 ≤ d') := by
  induction fuel with
  | zero =>
    intro y m d h1 h2 hf
    have hb := monthLength_bounds y m
    have e := daysInMonth_eq y h1 h2
    refine ⟨y, m, d, ?_, h1, h2, by omega, rfl, fun _ => ⟨rfl, rfl, rfl⟩, id⟩
    unfold rollForward
    rw [if_neg (by omega)]
  | succ fuel ih =>
    intro y m d h1 h2 hf
    have hb := monthLength_bounds y m
    have e := daysInMonth_eq y h1 h2
    unfold rollForward
    by_cases hd : d > daysInMonth y m
    · rw [if_pos hd]
      dsimp only
      by_cases hm : m = 12
      · rw [if_pos hm]
        subst hm
        obtain ⟨y', m', d', e1, e2, e3, e4, e5, e6, e7⟩ :=
          ih (y + 1) 1 (d - daysInMonth y 12) (by omega) (by omega) (by omega)
        exact ⟨y', m', d', e1, e2, e3, e4, by rw [e5, days_year], fun h => by omega,
          fun _ => e7 (by omega)⟩
      · rw [if_neg hm]
        obtain ⟨y', m', d', e1, e2, e3, e4, e5, e6, e7⟩ :=
          ih y (m + 1) (d - daysInMonth y m) (by omega) (by omega) (by omega)
        exact ⟨y', m', d', e1, e2, e3, e4, by rw [e5, days_month _ h1 (by omega)],
          fun h => by omega, fun _ => e7 (by omega)⟩
    · rw [if_neg hd]
      exact ⟨y, m, d, rfl, h1, h2, by omega, rfl, fun _ => ⟨rfl, rfl, rfl⟩, id⟩

theorem rollBackward_spec (fuel : Nat) : ∀ (y m d : Int), 1 ≤ m → m ≤ 12 → 1 - d ≤ fuel →
    d ≤ daysInMonth y m →
    ∃ y' m' d', rollBackward fuel y m d = some (y', m', d') ∧ 1 ≤ m' ∧ m' ≤ 12 ∧
      1 ≤ d' ∧ d' ≤ daysInMonth y' m' ∧ daysSince1900 y' m' d' = daysSince1900 y m d ∧
      (1 ≤ d → d' = d ∧ m' = m ∧ y' = y) := by
  induction fuel with
  | zero =>
    intro y m d h1 h2 hf hd
    refine ⟨y, m, d, ?_, h1, h2, by omega, hd, rfl, fun _ => ⟨rfl, rfl, rfl⟩⟩
    unfold rollBackward
    rw [if_neg (by omega)]
  | succ fuel ih =>
    intro y m d h1 h2 hf hd
    unfold rollBackward
    by_cases h : d < 1
    · rw [if_pos h]
      dsimp only
      by_cases hm : m = 1
      · subst hm
        simp only [if_true]
        have hb := monthLength_bounds (y - 1) 12
        have e := daysInMonth_eq (m := 12) (y - 1) (by omega) (by omega)
        obtain ⟨y', m', d', e1, e2, e3, e4, e5, e6, e7⟩ :=
          ih (y - 1) 12 (d + daysInMonth (y - 1) 12) (by omega) (by omega) (by omega) (by omega)
        refine ⟨y', m', d', e1, e2, e3, e4, e5, ?_, fun h => by omega⟩
        rw [e6, ← days_year, Int.sub_add_cancel]
        congr 1; omega
      · simp only [if_neg hm]
        have hb := monthLength_bounds y (m - 1)
        have e := daysInMonth_eq (m := m - 1) y (by omega) (by omega)
        obtain ⟨y', m', d', e1, e2, e3, e4, e5, e6, e7⟩ :=
          ih y (m - 1) (d + daysInMonth y (m - 1)) (by omega) (by omega) (by omega) (by omega)
        refine ⟨y', m', d', e1, e2, e3, e4, e5, ?_, fun h => by omega⟩
        rw [e6, ← days_month _ (by omega) (by omega), Int.sub_add_cancel]
        congr 1; omega
    · rw [if_neg h]
      exact ⟨y, m, d, rfl, h1, h2, by omega, hd, rfl, fun _ => ⟨rfl, rfl, rfl⟩⟩

/-- `canonicalize-date` puts all fields in range and keeps the point in time. -/
theorem canonicalize_spec (d : Date) (h1 : 1 ≤ d.month) (h2 : d.month ≤ 12) :
    ∃ d', canonicalizeDate d = some d' ∧ d'.InRange ∧
      sec d' * 1000000 + d'.microseconds = sec d * 1000000 + d.microseconds ∧
      d'.zone = d.zone ∧ d'.universal = d.universal := by
  have c1 := carry_spec d.microseconds d.seconds 1000000 (by omega)
  have c2 := carry_spec (carry d.microseconds d.seconds 1000000).2 d.minutes 60 (by omega)
  have c3 := carry_spec (carry (carry d.microseconds d.seconds 1000000).2 d.minutes 60).2 d.hours
    60 (by omega)
  have c4 := carry_spec (carry (carry (carry d.microseconds d.seconds 1000000).2 d.minutes 60).2
    d.hours 60).2 d.day 24 (by omega)
  unfold canonicalizeDate
  dsimp only
  generalize carry d.microseconds d.seconds 1000000 = p1 at *
  generalize carry p1.2 d.minutes 60 = p2 at *
  generalize carry p2.2 d.hours 60 = p3 at *
  generalize carry p3.2 d.day 24 = p4 at *
  obtain ⟨y1, m1, d1, e1, f1, f2, f3, f4, -, -⟩ :=
    rollForward_spec p4.2.natAbs d.year d.month p4.2 h1 h2 (by omega)
  obtain ⟨y2, m2, d2, e2, g1, g2, g3, g4, g5, -⟩ :=
    rollBackward_spec (d1.natAbs + 1) y1 m1 d1 f1 f2 (by omega) f3
  rw [e1]
  dsimp only
  rw [e2]
  refine ⟨_, rfl, ⟨⟨g1, g2, g3, ?_⟩, c4.2.1, c4.2.2, c3.2.1, c3.2.2, c2.2.1, c2.2.2, c1.2.1,
    c1.2.2⟩, ?_, rfl, rfl⟩
  · dsimp only
    rw [← daysInMonth_eq _ g1 g2]; exact g4
  · have hD : daysSince1900 y2 m2 d2 = daysSince1900 d.year d.month d.day + (p4.2 - d.day) := by
      rw [g5, f4, ← days_add _ _ h1 h2]; congr 1; omega
    unfold sec
    dsimp only
    rw [hD]
    omega

theorem carry_id {low high base : Int} (h1 : 0 ≤ low) (h2 : low < base) :
    carry low high base = (low, high) := by
  unfold carry; rw [if_pos (by omega)]

theorem canonicalize_id {d : Date} (h : d.InRange) : canonicalizeDate d = some d := by
  obtain ⟨⟨h1, h2, h3, h4⟩, r1, r2, r3, r4, r5, r6, r7, r8⟩ := h
  dsimp only at h1 h2 h3 h4
  unfold canonicalizeDate
  dsimp only
  rw [carry_id r7 r8, carry_id r5 r6, carry_id r3 r4, carry_id r1 r2]
  dsimp only
  rw [← daysInMonth_eq _ h1 h2] at h4
  obtain ⟨y1, m1, d1, e1, -, -, -, -, f5, -⟩ :=
    rollForward_spec d.day.natAbs d.year d.month d.day h1 h2 (by omega)
  obtain ⟨rfl, rfl, rfl⟩ := f5 h4
  rw [e1]
  dsimp only
  obtain ⟨y2, m2, d2, e2, -, -, -, -, -, g6⟩ :=
    rollBackward_spec (d.day.natAbs + 1) d.year d.month d.day h1 h2 (by omega) h4
  obtain ⟨rfl, rfl, rfl⟩ := g6 h3
  rw [e2]

theorem second_eq {number : Day → Int} (hn : Numbering number) {d : Date} (h : d.InRange) :
    d.second number = sec d := by
  unfold Date.second sec
  rw [numbering_code hn h.1]
  rfl

theorem instant_eq {number : Day → Int} (hn : Numbering number) {d : Date} (h : d.InRange) :
    d.instant number = sec d * 1000000 + d.microseconds := by
  unfold Date.instant
  rw [second_eq hn h]

theorem compute_of_sec {x y : Date} (h : sec x = sec y) :
    computeUniversalTime x = computeUniversalTime y := by
  have hx := compute_spec x
  have hy := compute_spec y
  refine Prod.ext ?_ ?_ <;> omega

theorem universalOf_sound {d : Date} (h : d.Sound) : universalOf d = computeUniversalTime d := by
  rcases h with h | h <;> simp [universalOf, h]

theorem clone_spec {d : Date} (h : d.InRange) (hy : 1800 ≤ d.year ∧ d.year < 2200)
    (hz : -1440 ≤ d.zone ∧ d.zone ≤ 1440) : cloneDate d = some { d with universal := none } := by
  obtain ⟨⟨h1, h2, h3, h4⟩, r1, r2, r3, r4, r5, r6, r7, r8⟩ := h
  dsimp only at h1 h2 h3 h4
  unfold cloneDate makeDate
  rw [if_neg (by omega), if_neg (by omega), if_neg (by rw [daysInMonth_eq _ h1 h2]; omega),
    if_neg (by omega), if_neg (by omega), if_neg (by omega), if_neg (by omega), if_neg (by omega)]

/-! ### Durations -/

theorem canonicalizeDuration_length (x : DayTime) : (canonicalizeDuration x).length = x.length := by
  unfold canonicalizeDuration carryDuration alignSigns DayTime.length
  dsimp only
  repeat' split
  all_goals dsimp only at *
  all_goals omega

theorem align (low high base : Int) :
    (alignSigns low high base = (low, high) ∧ ((0 ≤ low ∧ 0 ≤ high) ∨ (low ≤ 0 ∧ high ≤ 0))) ∨
    (alignSigns low high base = (low + base, high - 1) ∧ low < 0 ∧ 0 < high) ∨
    (alignSigns low high base = (low - base, high + 1) ∧ 0 < low ∧ high < 0) := by
  unfold alignSigns
  by_cases h : decide (low < 0) = decide (high < 0) ∨ low = 0 ∨ high = 0
  · rw [if_pos h]
    refine Or.inl ⟨rfl, ?_⟩
    rw [decide_eq_decide] at h
    omega
  · rw [if_neg h]
    rw [decide_eq_decide] at h
    by_cases hl : low < 0
    · rw [if_pos hl]; exact Or.inr (Or.inl ⟨rfl, hl, by omega⟩)
    · rw [if_neg hl]; exact Or.inr (Or.inr ⟨rfl, by omega, by omega⟩)

theorem canonicalizeDuration_canonical (x : DayTime) :
    (canonicalizeDuration x).Canonical ∨
      ((canonicalizeDuration x).seconds = 0 ∧
        ((0 < (canonicalizeDuration x).days ∧ (canonicalizeDuration x).microseconds < 0) ∨
          ((canonicalizeDuration x).days < 0 ∧ 0 < (canonicalizeDuration x).microseconds))) := by
  have key : ∀ (low high base : Int), 0 < base →
      (-base < (carryDuration low high base).1 ∧ (carryDuration low high base).1 < base) := by
    intro low high base hb
    unfold carryDuration
    split
    · dsimp only; omega
    · dsimp only
      have h1 := Int.emod_nonneg low (by omega : base ≠ 0)
      have h2 := Int.emod_lt_of_pos low hb
      omega
  unfold canonicalizeDuration DayTime.Canonical
  dsimp only
  have k1 := key x.microseconds x.seconds 1000000 (by omega)
  generalize carryDuration x.microseconds x.seconds 1000000 = c1 at *
  have k2 := key c1.2 x.days 86400 (by omega)
  generalize carryDuration c1.2 x.days 86400 = c2 at *
  rcases align c2.1 c2.2 86400 with ⟨e3, s3⟩ | ⟨e3, s3, t3⟩ | ⟨e3, s3, t3⟩ <;> rw [e3] <;>
    dsimp only
  · rcases align c1.1 c2.1 1000000 with ⟨e4, s4⟩ | ⟨e4, s4, t4⟩ | ⟨e4, s4, t4⟩ <;> rw [e4] <;>
      dsimp only <;> omega
  · rcases align c1.1 (c2.1 + 86400) 1000000 with ⟨e4, s4⟩ | ⟨e4, s4, t4⟩ | ⟨e4, s4, t4⟩ <;>
      rw [e4] <;> dsimp only <;> omega
  · rcases align c1.1 (c2.1 - 86400) 1000000 with ⟨e4, s4⟩ | ⟨e4, s4, t4⟩ | ⟨e4, s4, t4⟩ <;>
      rw [e4] <;> dsimp only <;> omega

end Verif.Date
