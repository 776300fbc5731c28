/-
C56: the calendar. C57: dates, time zones and arithmetic with dates. C58: durations.
-/
import Verif.Date.Lemmas

namespace Verif.Date

/-! ### C56 -/

/-- There is exactly one numbering of the days, forwards and backwards from 1 January 1900, and the
    code computes it for every day of every year. -/
theorem day_number_spec :
    Numbering (fun d => daysSince1900 d.year d.month d.day) ∧
      ∀ number : Day → Int, Numbering number → ∀ d : Day, d.Exists →
        daysSince1900 d.year d.month d.day = number d :=
  ⟨code_numbering, fun _ hn _ hd => (numbering_code hn hd).symm⟩

example : Day.Exists ⟨2000, 2, 29⟩ ∧ ¬ Day.Exists ⟨1900, 2, 29⟩ ∧ Day.Exists ⟨-4, 2, 29⟩ ∧
    daysSince1900 2000 2 29 = 36583 ∧ daysSince1900 1800 1 1 = -36524 := by
  unfold Day.Exists; decide

/-- C56: the order of the day numbers is the order of the calendar. -/
theorem day_number_order (a b : Day) (ha : a.Exists) (hb : b.Exists) :
    (daysSince1900 a.year a.month a.day < daysSince1900 b.year b.month b.day ↔ a.Before b) ∧
      (daysSince1900 a.year a.month a.day = daysSince1900 b.year b.month b.day ↔ a = b) := by
  have h1 := fun h => code_before ha hb h
  have h2 := fun h => code_before hb ha h
  have h3 : ∀ d : Day, daysSince1900 d.year d.month d.day = code d := fun _ => rfl
  rw [h3, h3]
  refine ⟨⟨fun h => ?_, h1⟩, ⟨code_inj ha hb, fun h => by rw [h]⟩⟩
  rcases day_trichotomy a b with h' | h' | h'
  · rw [h'] at h; omega
  · exact h'
  · have := h2 h'; omega

/-- C56: 1 January 1900 was a Monday, and the weekday of the next day is the next weekday, for every
    day of the calendar, forwards and backwards. -/
theorem day_of_week_spec :
    dayOfWeek 1900 1 1 = some .monday ∧
      ∀ d : Day, d.Exists → ∃ w, dayOfWeek d.year d.month d.day = some w ∧
        dayOfWeek d.next.year d.next.month d.next.day = some w.next := by
  refine ⟨by decide, fun d hd => ?_⟩
  have h := code_next hd
  unfold dayOfWeek
  have h3 : ∀ d : Day, daysSince1900 d.year d.month d.day = code d := fun _ => rfl
  rw [h3, h3, h]
  generalize code d = n
  have h7 : n % 7 = 0 ∨ n % 7 = 1 ∨ n % 7 = 2 ∨ n % 7 = 3 ∨ n % 7 = 4 ∨ n % 7 = 5 ∨ n % 7 = 6 := by
    omega
  rcases h7 with h | h | h | h | h | h | h
  · rw [show (n + 1) % 7 = 1 by omega, show (n + 1 + 1) % 7 = 2 by omega]
    exact ⟨_, rfl, rfl⟩
  · rw [show (n + 1) % 7 = 2 by omega, show (n + 1 + 1) % 7 = 3 by omega]
    exact ⟨_, rfl, rfl⟩
  · rw [show (n + 1) % 7 = 3 by omega, show (n + 1 + 1) % 7 = 4 by omega]
    exact ⟨_, rfl, rfl⟩
  · rw [show (n + 1) % 7 = 4 by omega, show (n + 1 + 1) % 7 = 5 by omega]
    exact ⟨_, rfl, rfl⟩
  · rw [show (n + 1) % 7 = 5 by omega, show (n + 1 + 1) % 7 = 6 by omega]
    exact ⟨_, rfl, rfl⟩
  · rw [show (n + 1) % 7 = 6 by omega, show (n + 1 + 1) % 7 = 0 by omega]
    exact ⟨_, rfl, rfl⟩
  · rw [show (n + 1) % 7 = 0 by omega, show (n + 1 + 1) % 7 = 1 by omega]
    exact ⟨_, rfl, rfl⟩

example : dayOfWeek 2026 11 16 = some .monday ∧ dayOfWeek 1815 6 18 = some .sunday := by decide

/-- C56: a date can be made exactly of an existing day of 1800 to 2199, a time of day and a time
    zone of at most 24 hours, and holds what it was given. -/
theorem make_date_spec (year month day hours minutes seconds microseconds zone : Int) (d : Date) :
    makeDate year month day hours minutes seconds microseconds zone = some d ↔
      d = ⟨year, month, day, hours, minutes, seconds, microseconds, zone, none⟩ ∧ d.InRange ∧
        1800 ≤ year ∧ year ≤ 2199 ∧ -1440 ≤ zone ∧ zone ≤ 1440 := by
  constructor
  · intro h
    unfold makeDate at h
    by_cases h1 : ¬ (1800 ≤ year ∧ year < 2200)
    · rw [if_pos h1] at h; exact absurd h (by simp)
    rw [if_neg h1] at h
    by_cases h2 : ¬ (1 ≤ month ∧ month ≤ 12)
    · rw [if_pos h2] at h; exact absurd h (by simp)
    rw [if_neg h2] at h
    by_cases h3 : ¬ (1 ≤ day ∧ day ≤ daysInMonth year month)
    · rw [if_pos h3] at h; exact absurd h (by simp)
    rw [if_neg h3] at h
    by_cases h4 : ¬ (0 ≤ hours ∧ hours < 24)
    · rw [if_pos h4] at h; exact absurd h (by simp)
    rw [if_neg h4] at h
    by_cases h5 : ¬ (0 ≤ minutes ∧ minutes < 60)
    · rw [if_pos h5] at h; exact absurd h (by simp)
    rw [if_neg h5] at h
    by_cases h6 : ¬ (0 ≤ seconds ∧ seconds < 60)
    · rw [if_pos h6] at h; exact absurd h (by simp)
    rw [if_neg h6] at h
    by_cases h7 : ¬ (0 ≤ microseconds ∧ microseconds < 1000000)
    · rw [if_pos h7] at h; exact absurd h (by simp)
    rw [if_neg h7] at h
    by_cases h8 : ¬ (-24 * 60 ≤ zone ∧ zone ≤ 24 * 60)
    · rw [if_pos h8] at h; exact absurd h (by simp)
    rw [if_neg h8] at h
    simp only [Option.some.injEq] at h
    subst h
    rw [daysInMonth_eq _ (by omega) (by omega)] at h3
    unfold Date.InRange Day.Exists
    dsimp only
    exact ⟨rfl, by omega, by omega, by omega, by omega, by omega⟩
  · rintro ⟨rfl, hr, h1, h2, h3, h4⟩
    exact clone_spec hr ⟨h1, by dsimp only; omega⟩ ⟨h3, h4⟩

example : makeDate 2024 2 29 23 59 59 999999 (-300) ≠ none ∧
    makeDate 2023 2 29 0 0 0 0 0 = none := by decide

/-! ### C57 -/

/-- C57: two dates are equal exactly if they name the same second, and one is less exactly if it
    names an earlier second, whatever their time zones and whatever has been asked before.
    (Microseconds are ignored, as documented.) -/
theorem compare_dates_spec (number : Day → Int) (hn : Numbering number) (x y : Date)
    (hx : x.InRange) (hy : y.InRange) (sx : x.Sound) (sy : y.Sound) :
    (dateEq x y = true ↔ x.second number = y.second number) ∧
      (dateLess x y = true ↔ x.second number < y.second number) := by
  rw [second_eq hn hx, second_eq hn hy]
  unfold dateEq dateLess
  rw [universalOf_sound sx, universalOf_sound sy]
  have h1 := compute_spec x
  have h2 := compute_spec y
  simp only [Bool.and_eq_true, Bool.or_eq_true, decide_eq_true_eq]
  omega

/-- C57: changing the time zone offset keeps the point in time, and adjusts the other fields to
    existing values; it ends for every offset. -/
theorem set_zone_spec (number : Day → Int) (hn : Numbering number) (d : Date) (hd : d.InRange)
    (sd : d.Sound) (zone : Int) :
    ∃ d', setZone d zone = some d' ∧ d'.zone = zone ∧ d'.InRange ∧ d'.Sound ∧
      d'.instant number = d.instant number := by
  obtain ⟨h1, h2, -, -⟩ := hd.1
  dsimp only at h1 h2
  obtain ⟨d', e, hr, hs, hz, hu⟩ := canonicalize_spec
    { d with minutes := d.minutes + (zone - d.zone) % 60, hours := d.hours + (zone - d.zone) / 60 } h1 h2
  unfold setZone
  dsimp only at *
  rw [e]
  have hsec : sec { d' with zone := zone } = sec d ∧ d'.microseconds = d.microseconds := by
    have m1 : 0 ≤ d'.microseconds ∧ d'.microseconds < 1000000 := hr.2.2.2.2.2.2.2
    have m2 : 0 ≤ d.microseconds ∧ d.microseconds < 1000000 := hd.2.2.2.2.2.2.2
    unfold sec at hs ⊢
    dsimp only at hs ⊢
    omega
  refine ⟨_, rfl, rfl, hr, ?_, ?_⟩
  · unfold Date.Sound
    rcases sd with h | h
    · exact Or.inl (by dsimp only; rw [hu, h])
    · refine Or.inr ?_
      rw [compute_of_sec hsec.1, ← h]
      exact hu
  · rw [instant_eq hn hd, instant_eq hn (d := { d' with zone := zone }) hr, hsec.1]
    dsimp only
    rw [hsec.2]

example : (setZone ⟨2024, 2, 29, 23, 30, 0, 0, 0, none⟩ 60).map
      (fun d => (d.month, d.day, d.hours, d.minutes)) = some (3, 1, 0, 30) ∧
    (setZone ⟨2024, 1, 1, 0, 10, 0, 5, 0, none⟩ (-300)).map
      (fun d => (d.year, d.month, d.day, d.hours, d.minutes)) = some (2023, 12, 31, 19, 10) := by
  decide

/-- What a program can do to a date object: use it in a comparison or a subtraction, which may fill
    the slots, or change its time zone. -/
inductive Use
  | compare
  | setZone (zone : Int)

/-- A date object after a sequence of uses. -/
def runUses : List Use → Date → Option Date
  | [], d => some d
  | .compare :: us, d => runUses us (touch d)
  | .setZone z :: us, d => match setZone d z with
    | none => none
    | some d => runUses us d

/-- C57: a date object names the same point in time for all its life. -/
theorem uses_keep_instant (number : Day → Int) (hn : Numbering number) (us : List Use) :
    ∀ d : Date, d.InRange → d.Sound →
      ∃ d', runUses us d = some d' ∧ d'.InRange ∧ d'.Sound ∧
        d'.instant number = d.instant number := by
  induction us with
  | nil => intro d hd sd; exact ⟨d, rfl, hd, sd, rfl⟩
  | cons u us ih =>
    intro d hd sd
    cases u with
    | compare =>
      have st : (touch d).Sound := by
        refine Or.inr ?_
        unfold touch
        dsimp only
        rw [universalOf_sound sd]
        rfl
      obtain ⟨d', e, hr, hs, hi⟩ := ih (touch d) hd st
      exact ⟨d', e, hr, hs, hi⟩
    | setZone z =>
      obtain ⟨d1, e1, -, r1, s1, i1⟩ := set_zone_spec number hn d hd sd z
      obtain ⟨d', e, hr, hs, hi⟩ := ih d1 r1 s1
      refine ⟨d', ?_, hr, hs, by rw [hi, i1]⟩
      unfold runUses
      rw [e1]
      exact e

example : (runUses [.compare, .setZone 90, .compare, .setZone (-600)]
      ⟨2024, 2, 29, 23, 30, 0, 0, 0, none⟩).map (fun d => (d.day, d.hours, dateEq d
        ⟨2024, 2, 29, 23, 30, 0, 0, 0, none⟩)) = some (29, 13, true) := by decide +kernel

/-- C57: adding a day/time duration to a date, and subtracting one, moves the point in time by
    exactly the length of the duration, keeps the time zone and gives a date whose fields exist. It
    ends for every duration, and no condition is signalled. -/
theorem add_duration_spec (number : Day → Int) (hn : Numbering number) (x : Date) (hx : x.InRange)
    (hyear : 1800 ≤ x.year ∧ x.year ≤ 2199) (hzone : -1440 ≤ x.zone ∧ x.zone ≤ 1440) (y : DayTime)
    (response : Response) :
    (∃ d, addToDate x 0 y response = .date d ∧ d.InRange ∧ d.Sound ∧ d.zone = x.zone ∧
      d.instant number = x.instant number + y.length) ∧
    (∃ d, subtractFromDate x 0 y response = .date d ∧ d.InRange ∧ d.Sound ∧ d.zone = x.zone ∧
      d.instant number = x.instant number - y.length) := by
  obtain ⟨h1, h2, h3, h4⟩ := hx.1
  dsimp only at h1 h2 h3 h4
  have hc := clone_spec hx ⟨hyear.1, by omega⟩ hzone
  have hm : ∀ d : Date, d.year = x.year → d.month = x.month → d.day = x.day →
      canonicalizeMonthYear d response = .date d := by
    intro d e1 e2 e3
    unfold canonicalizeMonthYear
    dsimp only
    have hi : -1 < d.month - 1 ∧ d.month - 1 < 12 := by omega
    have hj : d.day ≤ daysInMonth d.year d.month := by
      rw [e1, e2, e3, daysInMonth_eq _ h1 h2]; exact h4
    rw [if_pos hi, if_pos hj]
  have key : ∀ a b c : Int, ∃ d, finishSum (.date { x with universal := none }) a b c = .date d ∧
      d.InRange ∧ d.Sound ∧ d.zone = x.zone ∧
      d.instant number = x.instant number + ((a * 86400 + b) * 1000000 + c) := by
    intro a b c
    obtain ⟨d', e, hr, hs, hz, hu⟩ := canonicalize_spec
      { x with universal := none, day := x.day + a, seconds := x.seconds + b, microseconds := x.microseconds + c } h1 h2
    unfold finishSum
    dsimp only at *
    rw [e]
    refine ⟨d', rfl, hr, Or.inl hu, hz, ?_⟩
    rw [instant_eq hn hr, instant_eq hn hx, hs]
    unfold sec
    dsimp only
    rw [days_add _ _ h1 h2]
    omega
  unfold addToDate subtractFromDate
  rw [hc]
  dsimp only
  rw [Int.add_zero, Int.sub_zero, hm { x with universal := none } rfl rfl rfl]
  obtain ⟨d, e1, e2, e3, e4, e5⟩ := key y.days y.seconds y.microseconds
  obtain ⟨d', f1, f2, f3, f4, f5⟩ := key (-y.days) (-y.seconds) (-y.microseconds)
  refine ⟨⟨d, e1, e2, e3, e4, e5⟩, ⟨d', f1, f2, f3, f4, ?_⟩⟩
  rw [f5]
  unfold DayTime.length
  omega

/-- C57: the difference of two dates is exactly the time between them. -/
theorem subtract_dates_spec (number : Day → Int) (hn : Numbering number) (x y : Date)
    (hx : x.InRange) (hy : y.InRange) (sx : x.Sound) (sy : y.Sound) :
    (subtractDates x y).length = x.instant number - y.instant number := by
  rw [instant_eq hn hx, instant_eq hn hy]
  unfold subtractDates encodeDayTime
  rw [canonicalizeDuration_length, universalOf_sound sx, universalOf_sound sy]
  have h1 := compute_spec x
  have h2 := compute_spec y
  unfold DayTime.length
  dsimp only
  omega

/-- C57: `y + (x - y)` names the same point in time as `x`, in the time zone of `y`. -/
theorem add_difference (number : Day → Int) (hn : Numbering number) (x y : Date)
    (hx : x.InRange) (hy : y.InRange) (sx : x.Sound) (sy : y.Sound)
    (hyear : 1800 ≤ y.year ∧ y.year ≤ 2199) (hzone : -1440 ≤ y.zone ∧ y.zone ≤ 1440)
    (response : Response) :
    ∃ d, addToDate y 0 (subtractDates x y) response = .date d ∧ d.InRange ∧ d.zone = y.zone ∧
      d.instant number = x.instant number := by
  obtain ⟨⟨d, e1, e2, -, e4, e5⟩, -⟩ :=
    add_duration_spec number hn y hy hyear hzone (subtractDates x y) response
  refine ⟨d, e1, e2, e4, ?_⟩
  rw [e5, subtract_dates_spec number hn x y hx hy sx sy]
  omega

example : addToDate ⟨1999, 12, 31, 23, 0, 0, 0, 60, none⟩ 0
      (subtractDates ⟨2024, 2, 29, 12, 0, 0, 7, -300, none⟩ ⟨1999, 12, 31, 23, 0, 0, 0, 60, none⟩)
      .unhandled =
    .date ⟨2024, 2, 29, 18, 0, 0, 7, 60, none⟩ := by decide +kernel

/-- C57: adding months keeps the day and the time of day if the target month has that day. If not, a
    condition about the day is signalled: without a handler that is an error; the restart offered
    gives the last day of the month. (Subtracting works in the same way.) -/
theorem add_months_spec (x : Date) (hx : x.InRange) (hyear : 1800 ≤ x.year ∧ x.year ≤ 2199)
    (hzone : -1440 ≤ x.zone ∧ x.zone ≤ 1440) (n year month : Int)
    (hm : 1 ≤ month ∧ month ≤ 12) (ht : 12 * year + month = 12 * x.year + x.month + n) :
    (x.day ≤ monthLength year month → ∀ response,
      addToDate x n ⟨0, 0, 0⟩ response =
        .date { x with year := year, month := month, universal := none }) ∧
    (monthLength year month < x.day →
      addToDate x n ⟨0, 0, 0⟩ .unhandled = .invalidDay ∧
      addToDate x n ⟨0, 0, 0⟩ .useLastValidDay =
        .date { x with year := year, month := month, day := monthLength year month, universal := none }) ∧
    (∀ response, subtractFromDate x (-n) ⟨0, 0, 0⟩ response = addToDate x n ⟨0, 0, 0⟩ response) := by
  obtain ⟨⟨h1, h2, h3, h4⟩, hr⟩ := hx
  dsimp only at h1 h2 h3 h4
  have hc := clone_spec ⟨⟨h1, h2, h3, h4⟩, hr⟩ ⟨hyear.1, by omega⟩ hzone
  have hb := monthLength_bounds year month
  have hnorm : (if -1 < x.month + n - 1 ∧ x.month + n - 1 < 12 then
      ({ x with month := x.month + n, universal := none } : Date)
      else { x with month := (x.month + n - 1) % 12 + 1, year := x.year + (x.month + n - 1) / 12, universal := none }) =
      { x with year := year, month := month, universal := none } := by
    by_cases h : -1 < x.month + n - 1 ∧ x.month + n - 1 < 12
    · rw [if_pos h]
      congr 1 <;> omega
    · rw [if_neg h]
      congr 1 <;> omega
  have hfin : ∀ d : Date, d.InRange → finishSum (.date d) 0 0 0 = .date d := by
    intro d hd
    unfold finishSum
    dsimp only
    rw [Int.add_zero, Int.add_zero, Int.add_zero, canonicalize_id hd]
  have hadd : ∀ response, addToDate x n ⟨0, 0, 0⟩ response = finishSum
      (if x.day ≤ monthLength year month then
        .date { x with year := year, month := month, universal := none }
      else match response with
        | .unhandled => .invalidDay
        | .useLastValidDay => .date { x with year := year, month := month, day := monthLength year month, universal := none }
        | .returns => .date { x with year := year, month := month, universal := none }) 0 0 0 := by
    intro response
    unfold addToDate
    rw [hc]
    dsimp only
    unfold canonicalizeMonthYear
    dsimp only
    rw [hnorm]
    dsimp only
    rw [daysInMonth_eq _ hm.1 hm.2]
    cases response <;> rfl
  refine ⟨fun hd response => ?_, fun hd => ⟨?_, ?_⟩, fun response => ?_⟩
  · rw [hadd, if_pos hd]
    exact hfin _ ⟨⟨hm.1, hm.2, h3, hd⟩, hr⟩
  · rw [hadd, if_neg (by omega)]; rfl
  · rw [hadd, if_neg (by omega)]
    exact hfin _ ⟨⟨hm.1, hm.2, by dsimp only; omega, Int.le_refl _⟩, hr⟩
  · unfold addToDate subtractFromDate
    rw [hc]
    dsimp only
    rw [Int.sub_neg]
    rfl

example : addToDate ⟨2024, 1, 31, 8, 0, 0, 0, 0, none⟩ 1 ⟨0, 0, 0⟩ .useLastValidDay =
      .date ⟨2024, 2, 29, 8, 0, 0, 0, 0, none⟩ ∧
    addToDate ⟨2024, 1, 15, 8, 0, 0, 0, 0, none⟩ (-13) ⟨0, 0, 0⟩ .unhandled =
      .date ⟨2022, 12, 15, 8, 0, 0, 0, 0, none⟩ := by decide +kernel

/-- The condition about the day says that returning from it is allowed and describes returning as
    "use the last valid day". The last valid day is not used then: 31 January plus one month is 2
    March. -/
theorem return_from_condition_violated :
    addToDate ⟨2024, 1, 31, 8, 0, 0, 0, 0, none⟩ 1 ⟨0, 0, 0⟩ .returns =
      .date ⟨2024, 3, 2, 8, 0, 0, 0, 0, none⟩ := by decide +kernel

/-- A sum may be a date out of the documented range. It cannot be used further: adding to it, even
    nothing, signals an error. -/
theorem sum_out_of_range_violated :
    ∃ d, addToDate ⟨2199, 12, 31, 0, 0, 0, 0, 0, none⟩ 0 ⟨1, 0, 0⟩ .unhandled = .date d ∧
      d.year = 2200 ∧ addToDate d 0 ⟨0, 0, 0⟩ .unhandled = .outOfRange :=
  ⟨⟨2200, 1, 1, 0, 0, 0, 0, 0, none⟩, by decide +kernel, rfl, by decide +kernel⟩

/-! ### C58 -/

/-- C58: making a duration, taking it apart, adding, subtracting and scaling by an integer are exact
    in the length of time. -/
theorem duration_arithmetic_spec (days hours minutes seconds microseconds : Int) (x y : DayTime)
    (k : Int) :
    (encodeDayTime days hours minutes seconds microseconds).length =
      (((days * 24 + hours) * 60 + minutes) * 60 + seconds) * 1000000 + microseconds ∧
    (addDurations x y).length = x.length + y.length ∧
    (subtractDurations x y).length = x.length - y.length ∧
    (scaleDuration x k).length = k * x.length := by
  have hclone : (cloneDayTime x).length = x.length := by
    unfold cloneDayTime encodeDayTime
    rw [canonicalizeDuration_length]
    unfold DayTime.length
    dsimp only
    omega
  refine ⟨?_, ?_, ?_, ?_⟩
  · unfold encodeDayTime
    rw [canonicalizeDuration_length]
    unfold DayTime.length
    dsimp only
    omega
  · unfold addDurations
    dsimp only
    rw [canonicalizeDuration_length, ← hclone]
    unfold DayTime.length
    dsimp only
    omega
  · unfold subtractDurations
    dsimp only
    rw [canonicalizeDuration_length, ← hclone]
    unfold DayTime.length
    dsimp only
    omega
  · unfold scaleDuration
    dsimp only
    rw [canonicalizeDuration_length, ← hclone]
    unfold DayTime.length
    dsimp only
    simp only [Int.mul_add, Int.add_mul, Int.mul_assoc]

/-- C58: `decode-duration` gives parts that make the same duration, each less than one of the next
    higher; the hours, minutes and seconds have the same sign. -/
theorem decode_duration_spec (x : DayTime) :
    let (days, hours, minutes, seconds, microseconds) := decodeDayTime x
    days = x.days ∧ microseconds = x.microseconds ∧
      (hours * 60 + minutes) * 60 + seconds = x.seconds ∧
      ((0 ≤ hours ∧ 0 ≤ minutes ∧ minutes < 60 ∧ 0 ≤ seconds ∧ seconds < 60) ∨
        (hours ≤ 0 ∧ -60 < minutes ∧ minutes ≤ 0 ∧ -60 < seconds ∧ seconds ≤ 0)) := by
  unfold decodeDayTime
  dsimp only
  refine ⟨rfl, rfl, ?_⟩
  by_cases h : 0 ≤ x.seconds
  · have e1 : x.seconds.tdiv 60 = x.seconds / 60 := Int.tdiv_eq_ediv_of_nonneg h
    have e2 : x.seconds.tmod 60 = x.seconds % 60 := Int.tmod_eq_emod_of_nonneg h
    rw [e1, e2]
    have h' : 0 ≤ x.seconds / 60 := by omega
    rw [Int.tdiv_eq_ediv_of_nonneg h', Int.tmod_eq_emod_of_nonneg h']
    omega
  · obtain ⟨s, hs⟩ : ∃ s, s = -x.seconds := ⟨_, rfl⟩
    have hx : x.seconds = -s := by omega
    have h0 : 0 ≤ s := by omega
    have h' : 0 ≤ s / 60 := by omega
    rw [hx, Int.neg_tdiv, Int.neg_tmod, Int.neg_tdiv, Int.neg_tmod,
      Int.tdiv_eq_ediv_of_nonneg h0, Int.tmod_eq_emod_of_nonneg h0,
      Int.tdiv_eq_ediv_of_nonneg h', Int.tmod_eq_emod_of_nonneg h']
    omega

/-- C58: year/month durations: making one and taking it apart. -/
theorem year_month_spec (years months : Int) :
    let (y, m) := decodeYearMonth (encodeYearMonth years months)
    12 * y + m = 12 * years + months ∧
      ((0 ≤ y ∧ 0 ≤ m ∧ m < 12) ∨ (y ≤ 0 ∧ -12 < m ∧ m ≤ 0)) := by
  unfold decodeYearMonth encodeYearMonth
  dsimp only
  generalize 12 * years + months = n
  by_cases h : 0 ≤ n
  · rw [Int.tdiv_eq_ediv_of_nonneg h, Int.tmod_eq_emod_of_nonneg h]; omega
  · obtain ⟨s, hs⟩ : ∃ s, s = -n := ⟨_, rfl⟩
    have hx : n = -s := by omega
    have h0 : 0 ≤ s := by omega
    rw [hx, Int.neg_tdiv, Int.neg_tmod, Int.tdiv_eq_ediv_of_nonneg h0,
      Int.tmod_eq_emod_of_nonneg h0]
    omega

/-- C58, partial: comparing durations compares their lengths, for durations in canonical form; and
    every duration a program can make is in canonical form, except those with no seconds whose days
    and microseconds have opposite signs. Missing: those, see `compare_durations_violated`. -/
theorem compare_durations_partial (x y : DayTime) :
    (x.Canonical → y.Canonical →
      (durationEq x y = true ↔ x.length = y.length) ∧
      (durationLess x y = true ↔ x.length < y.length)) ∧
    ((canonicalizeDuration x).Canonical ∨ ((canonicalizeDuration x).seconds = 0 ∧
      ((0 < (canonicalizeDuration x).days ∧ (canonicalizeDuration x).microseconds < 0) ∨
        ((canonicalizeDuration x).days < 0 ∧ 0 < (canonicalizeDuration x).microseconds)))) := by
  refine ⟨?_, canonicalizeDuration_canonical x⟩
  rintro ⟨h1, h2, h3, h4, h5⟩ ⟨g1, g2, g3, g4, g5⟩
  unfold durationEq durationLess DayTime.length
  simp only [Bool.and_eq_true, Bool.or_eq_true, decide_eq_true_eq]
  omega

example : (encodeDayTime 1 (-30) 0 0 (-1)).Canonical ∧
    encodeDayTime 1 (-30) 0 0 (-1) = ⟨0, -21600, -1⟩ ∧
    durationLess (encodeDayTime 1 (-30) 0 0 (-1)) (encodeDayTime 0 (-6) 0 0 0) = true := by
  unfold DayTime.Canonical; decide

/-- One day less five microseconds is not equal to 23 hours, 59 minutes, 59 seconds and 999995
    microseconds, and not less than a day. -/
theorem compare_durations_violated :
    (encodeDayTime 1 0 0 0 (-5)).length = (encodeDayTime 0 23 59 59 999995).length ∧
      durationEq (encodeDayTime 1 0 0 0 (-5)) (encodeDayTime 0 23 59 59 999995) = false ∧
      durationLess (encodeDayTime 0 23 59 59 999999) (encodeDayTime 1 0 0 0 (-5)) = true ∧
      (encodeDayTime 1 0 0 0 (-5)).length < (encodeDayTime 0 23 59 59 999999).length := by decide

/-- The documentation says that durations are compared without the microseconds. They are not. -/
theorem duration_microseconds_violated :
    durationEq (encodeDayTime 0 0 0 1 0) (encodeDayTime 0 0 0 1 1) = false := by decide

/-- Division rounds the days, seconds and microseconds each by itself: half of one day is no time,
    half of three days is two days, and half of a second is no time. -/
theorem divide_duration_violated :
    (divideDuration (encodeDayTime 1 0 0 0 0) 2).length = 0 ∧
      divideDuration (encodeDayTime 3 0 0 0 0) 2 = encodeDayTime 2 0 0 0 0 ∧
      (divideDuration (encodeDayTime 0 0 0 1 0) 2).length = 0 := by decide

/-- C58, partial: dividing is exact if every part is a multiple of the divisor. Missing: see
    `divide_duration_violated`. -/
theorem divide_duration_partial (x : DayTime) (hx : x.Canonical) (k : Int) (hk : 0 < k)
    (h1 : k ∣ x.days) (h2 : k ∣ x.seconds) (h3 : k ∣ x.microseconds) :
    k * (divideDuration x k).length = x.length := by
  have hclone : cloneDayTime x = x := by
    obtain ⟨g1, g2, g3, g4, g5⟩ := hx
    unfold cloneDayTime encodeDayTime canonicalizeDuration carryDuration
    dsimp only
    have hi : -1000000 < x.microseconds ∧ x.microseconds < 1000000 := by omega
    have hj : -86400 < x.seconds + 60 * (0 + 60 * 0) ∧ x.seconds + 60 * (0 + 60 * 0) < 86400 := by
      omega
    rw [if_pos hi]
    dsimp only
    rw [if_pos hj]
    dsimp only
    rw [show x.seconds + 60 * (0 + 60 * 0) = x.seconds by omega]
    rcases align x.seconds x.days 86400 with ⟨e3, s3⟩ | ⟨e3, s3, t3⟩ | ⟨e3, s3, t3⟩
    · rw [e3]
      dsimp only
      rcases align x.microseconds x.seconds 1000000 with ⟨e4, s4⟩ | ⟨e4, s4, t4⟩ | ⟨e4, s4, t4⟩
      · rw [e4]
      · omega
      · omega
    · omega
    · omega
  have hround : ∀ a : Int, k ∣ a → k * roundDiv a k = a := by
    intro a ha
    unfold roundDiv
    dsimp only
    rw [Int.emod_eq_zero_of_dvd ha, if_pos (Or.inl (by omega))]
    exact Int.mul_ediv_cancel' ha
  unfold divideDuration
  dsimp only
  rw [canonicalizeDuration_length, hclone]
  unfold DayTime.length
  dsimp only
  have r1 := hround _ h1
  have r2 := hround _ h2
  have r3 := hround _ h3
  rw [Int.mul_add, ← Int.mul_assoc, Int.mul_add, ← Int.mul_assoc, r1, r2, r3]

example : (encodeDayTime 4 2 0 0 0).Canonical ∧
    divideDuration (encodeDayTime 4 2 0 0 0) 2 = encodeDayTime 2 1 0 0 0 := by
  unfold DayTime.Canonical; decide

end Verif.Date
