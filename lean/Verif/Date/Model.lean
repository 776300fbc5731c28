/-
Model of dates and durations: /repo/sources/system/date.dylan and durations.dylan.

Simplification for the whole file: `<integer>` fields are unbounded integers here. In the code they
have 62 bits, and a field, or a number of seconds, beyond that signals an overflow error.
-/

namespace Verif.Date

/-- `$month-days` (date.dylan:217-231). -/
def monthDays : List Int := [0, 31, 28, 31, 30, 31, 30, 31, 31, 30, 31, 30, 31, 0]

/-- `leap-year?` (date.dylan:233-236). -/
def leapYear (year : Int) : Bool :=
  decide (year % 4 = 0) && (decide (year % 100 ≠ 0) || decide (year % 400 = 0))

/-- `days-in-month` (date.dylan:238-240). Simplification: an index outside `$month-days` gives 0,
    the code signals an error. -/
def daysInMonth (year month : Int) : Int :=
  (monthDays[month.toNat]?).getD 0 + if leapYear year && decide (month = 2) then 1 else 0

/-- `days-since-1900` (date.dylan:242-271). `reduce1` over a copied part of `$month-days` is the sum
    of that part. -/
def daysSince1900 (year month day : Int) : Int :=
  if year < 1900 then
    (day - 1 - daysInMonth year month
      - (if leapYear year && decide (month < 2) then 1 else 0)
      - (monthDays.drop (month + 1).toNat).sum
      - 365 * (1899 - year))
      - (1899 - year).tdiv 4
      + (1899 - year).tdiv 100
      - (1899 + 100 - year).tdiv 400
  else
    day + (if leapYear year && decide (month > 2) then 0 else -1)
      + (monthDays.take month.toNat).sum
      + 365 * (year - 1900)
      + (year - 1901).tdiv 4
      - (year - 1901).tdiv 100
      + (year - 1901 + 300).tdiv 400

/-- `<day-of-week>` (date.dylan:183-184). -/
inductive Weekday
  | sunday | monday | tuesday | wednesday | thursday | friday | saturday
deriving DecidableEq, Repr

/-- `$days-of-week` (date.dylan:188-189). -/
def daysOfWeek : List Weekday :=
  [.sunday, .monday, .tuesday, .wednesday, .thursday, .friday, .saturday]

/-- `date-day-of-week` (date.dylan:191-195), with `$dow-Jan-1-1900-offset` = 1 (186). -/
def dayOfWeek (year month day : Int) : Option Weekday :=
  daysOfWeek[((daysSince1900 year month day + 1) % 7).toNat]?

/-- `<date>` (date.dylan:9-21): the fields, and the two lazily filled slots `%universal-date` and
    `%universal-time`, which are set together. -/
structure Date where
  year : Int
  month : Int
  day : Int
  hours : Int
  minutes : Int
  seconds : Int
  microseconds : Int
  zone : Int
  universal : Option (Int × Int)
deriving DecidableEq, Repr

/-- `initialize` (date.dylan:55-99) checks every field; `none` is the error that is signalled when a
    check fails (its restart puts in a replacement, which is not modelled). -/
def makeDate (year month day hours minutes seconds microseconds zone : Int) : Option Date :=
  if ¬ (1800 ≤ year ∧ year < 2200) then none
  else if ¬ (1 ≤ month ∧ month ≤ 12) then none
  else if ¬ (1 ≤ day ∧ day ≤ daysInMonth year month) then none
  else if ¬ (0 ≤ hours ∧ hours < 24) then none
  else if ¬ (0 ≤ minutes ∧ minutes < 60) then none
  else if ¬ (0 ≤ seconds ∧ seconds < 60) then none
  else if ¬ (0 ≤ microseconds ∧ microseconds < 1000000) then none
  else if ¬ (-24 * 60 ≤ zone ∧ zone ≤ 24 * 60) then none
  else some ⟨year, month, day, hours, minutes, seconds, microseconds, zone, none⟩

/-- `clone-date` (date.dylan:317-323). -/
def cloneDate (d : Date) : Option Date :=
  makeDate d.year d.month d.day d.hours d.minutes d.seconds d.microseconds d.zone

/-- `compute-universal-time` (date.dylan:273-292). -/
def computeUniversalTime (d : Date) : Int × Int :=
  let ut := d.seconds + 60 * (d.minutes + 60 * d.hours)
  let ud := daysSince1900 d.year d.month d.day
  let tzs := 60 * d.zone
  let ut := ut - tzs % 86400
  let ud := ud - tzs / 86400
  if -1 < ut ∧ ut < 86400 then (ud, ut)
  else (ud + ut / 86400, ut % 86400)

/-- The values of `date-universal-date` and `date-universal-time` (date.dylan:101-113). -/
def universalOf (d : Date) : Int × Int := d.universal.getD (computeUniversalTime d)

/-- The effect of `date-universal-date` and `date-universal-time` on the date
    (`update-date-universal-slots`, date.dylan:208-215). -/
def touch (d : Date) : Date := { d with universal := some (universalOf d) }

/-- `\=` on dates (date.dylan:197-200). -/
def dateEq (x y : Date) : Bool :=
  decide ((universalOf x).1 = (universalOf y).1) && decide ((universalOf x).2 = (universalOf y).2)

/-- `\<` on dates (date.dylan:202-206). -/
def dateLess (x y : Date) : Bool :=
  decide ((universalOf x).1 < (universalOf y).1) ||
    (decide ((universalOf x).1 = (universalOf y).1) &&
      decide ((universalOf x).2 < (universalOf y).2))

/-- First loop of `canonicalize-date` (date.dylan:158-166). Simplification: `fuel` bounds the
    number of turns; `none` if it does not suffice. -/
def rollForward : Nat → Int → Int → Int → Option (Int × Int × Int)
  | fuel, year, month, day =>
    if day > daysInMonth year month then
      match fuel with
      | 0 => none
      | fuel + 1 =>
        let day := day - daysInMonth year month
        if month = 12 then rollForward fuel (year + 1) 1 day
        else rollForward fuel year (month + 1) day
    else some (year, month, day)

/-- Second loop of `canonicalize-date` (date.dylan:167-175). -/
def rollBackward : Nat → Int → Int → Int → Option (Int × Int × Int)
  | fuel, year, month, day =>
    if day < 1 then
      match fuel with
      | 0 => none
      | fuel + 1 =>
        let year' := if month = 1 then year - 1 else year
        let month' := if month = 1 then 12 else month - 1
        rollBackward fuel year' month' (day + daysInMonth year' month')
    else some (year, month, day)

/-- One carry of `canonicalize-date` (date.dylan:134-138 and the like): the new low field and the
    new high field. -/
def carry (low high base : Int) : Int × Int :=
  if -1 < low ∧ low < base then (low, high) else (low % base, high + low / base)

/-- `canonicalize-date` (date.dylan:133-177). `none`: the loops do not end within as many turns as
    the day number says. -/
def canonicalizeDate (d : Date) : Option Date :=
  let c1 := carry d.microseconds d.seconds 1000000
  let c2 := carry c1.2 d.minutes 60
  let c3 := carry c2.2 d.hours 60
  let c4 := carry c3.2 d.day 24
  match rollForward c4.2.natAbs d.year d.month c4.2 with
  | none => none
  | some (y, m, dd) =>
    match rollBackward (dd.natAbs + 1) y m dd with
    | none => none
    | some (y, m, dd) =>
      some { d with year := y, month := m, day := dd, hours := c4.1, minutes := c3.1, seconds := c2.1, microseconds := c1.1 }

/-- `date-time-zone-offset-setter` (date.dylan:117-128). -/
def setZone (d : Date) (newZone : Int) : Option Date :=
  let change := newZone - d.zone
  match canonicalizeDate { d with minutes := d.minutes + change % 60, hours := d.hours + change / 60 } with
  | none => none
  | some d' => some { d' with zone := newZone }

/-! ### Durations -/

/-- `<day/time-duration>` (durations.dylan:16-27): the slots such a duration uses. -/
structure DayTime where
  days : Int
  seconds : Int
  microseconds : Int
deriving DecidableEq, Repr

/-- The first two adjustments of `canonicalize-duration` (durations.dylan:107-112 and 113-117). -/
def carryDuration (low high base : Int) : Int × Int :=
  if -base < low ∧ low < base then (low, high) else (low % base, high + low / base)

/-- The last two adjustments of `canonicalize-duration` (durations.dylan:118-125 and 126-134): make
    the signs of two fields agree. -/
def alignSigns (low high base : Int) : Int × Int :=
  if decide (low < 0) = decide (high < 0) ∨ low = 0 ∨ high = 0 then (low, high)
  else if low < 0 then (low + base, high - 1) else (low - base, high + 1)

/-- `canonicalize-duration` (durations.dylan:105-136), for a day/time duration. (A year/month
    duration has zeros in these fields and stays as it is.) -/
def canonicalizeDuration (x : DayTime) : DayTime :=
  let c1 := carryDuration x.microseconds x.seconds 1000000
  let c2 := carryDuration c1.2 x.days 86400
  let c3 := alignSigns c2.1 c2.2 86400
  let c4 := alignSigns c1.1 c3.1 1000000
  ⟨c3.2, c4.2, c4.1⟩

/-- `encode-day/time-duration`, that is `make(<day/time-duration>)` (durations.dylan:192-198 and
    74-85). -/
def encodeDayTime (days hours minutes seconds microseconds : Int) : DayTime :=
  canonicalizeDuration ⟨days, seconds + 60 * (minutes + 60 * hours), microseconds⟩

/-- `decode-duration` of a day/time duration (durations.dylan:208-214). -/
def decodeDayTime (x : DayTime) : Int × Int × Int × Int × Int :=
  let minutes := x.seconds.tdiv 60
  let seconds := x.seconds.tmod 60
  let hours := minutes.tdiv 60
  let minutes := minutes.tmod 60
  (x.days, hours, minutes, seconds, x.microseconds)

/-- `encode-year/month-duration` (durations.dylan:187-190 and 66-72): the number of months. -/
def encodeYearMonth (years months : Int) : Int := 12 * years + months

/-- `decode-duration` of a year/month duration (durations.dylan:203-206). -/
def decodeYearMonth (months : Int) : Int × Int := (months.tdiv 12, months.tmod 12)

/-- `clone-duration` (durations.dylan:95-100). -/
def cloneDayTime (x : DayTime) : DayTime := encodeDayTime x.days 0 0 x.seconds x.microseconds

/-- `\=` on day/time durations (durations.dylan:216-221). -/
def durationEq (x y : DayTime) : Bool :=
  decide (x.days = y.days) && decide (x.seconds = y.seconds) &&
    decide (x.microseconds = y.microseconds)

/-- `\<` on day/time durations (durations.dylan:228-235). -/
def durationLess (x y : DayTime) : Bool :=
  decide (x.days < y.days) ||
    (decide (x.days = y.days) &&
      (decide (x.seconds < y.seconds) ||
        (decide (x.seconds = y.seconds) && decide (x.microseconds < y.microseconds))))

/-- `add-durations` (durations.dylan:296-304). -/
def addDurations (x y : DayTime) : DayTime :=
  let new := cloneDayTime x
  canonicalizeDuration
    ⟨new.days + y.days, new.seconds + y.seconds, new.microseconds + y.microseconds⟩

/-- `subtract-durations` (durations.dylan:316-324). -/
def subtractDurations (x y : DayTime) : DayTime :=
  let new := cloneDayTime x
  canonicalizeDuration
    ⟨new.days - y.days, new.seconds - y.seconds, new.microseconds - y.microseconds⟩

/-- `scale-duration` (durations.dylan:336-344) by an integer, where `round` changes nothing. -/
def scaleDuration (x : DayTime) (y : Int) : DayTime :=
  let new := cloneDayTime x
  canonicalizeDuration ⟨y * new.days, y * new.seconds, y * new.microseconds⟩

/-- `round/` of integers by a positive integer: to the nearest, ties to the even one
    (/repo/sources/dylan/integer.dylan; the general case is modelled in `Verif.Integer`). -/
def roundDiv (x y : Int) : Int :=
  let q := x / y
  let r := x % y
  if 2 * r < y ∨ (2 * r = y ∧ q % 2 = 0) then q else q + 1

/-- `\/` of a duration by a positive integer (durations.dylan:354-361). -/
def divideDuration (x : DayTime) (y : Int) : DayTime :=
  let new := cloneDayTime x
  canonicalizeDuration
    ⟨roundDiv new.days y, roundDiv new.seconds y, roundDiv new.microseconds y⟩

/-! ### Dates and durations -/

/-- What happens to the condition `<date-arithmetic-invalid-day>` (durations.dylan:248-257): no
    handler takes it, a handler chooses the restart `<date-arithmetic-use-last-valid-day>`, or a
    handler returns, as `return-allowed?` (162-165) says it may. -/
inductive Response
  | unhandled
  | useLastValidDay
  | returns
deriving DecidableEq, Repr

/-- The outcome of date arithmetic: a date, the error of `initialize` for a date that is out of
    range, or the unhandled condition about the day. -/
inductive Outcome
  | date (d : Date)
  | outOfRange
  | invalidDay
  | endless
deriving DecidableEq, Repr

/-- `canonicalize-date-month-year` (durations.dylan:241-259). -/
def canonicalizeMonthYear (d : Date) (response : Response) : Outcome :=
  let month := d.month - 1
  let d := if -1 < month ∧ month < 12 then d else { d with month := month % 12 + 1, year := d.year + month / 12 }
  if d.day ≤ daysInMonth d.year d.month then .date d
  else
    match response with
    | .unhandled => .invalidDay
    | .useLastValidDay => .date { d with day := daysInMonth d.year d.month }
    | .returns => .date d

/-- The end of `add-duration-to-date` (durations.dylan:266-269). -/
def finishSum (o : Outcome) (days seconds microseconds : Int) : Outcome :=
  match o with
  | .date d =>
    match canonicalizeDate { d with day := d.day + days, seconds := d.seconds + seconds, microseconds := d.microseconds + microseconds } with
    | some d => .date d
    | none => .endless
  | o => o

/-- `add-duration-to-date` (durations.dylan:261-270), for a duration of any kind. -/
def addToDate (x : Date) (months : Int) (y : DayTime) (response : Response) : Outcome :=
  match cloneDate x with
  | none => .outOfRange
  | some new =>
    finishSum (canonicalizeMonthYear { new with month := new.month + months } response)
      y.days y.seconds y.microseconds

/-- `\-` of a date and a duration (durations.dylan:286-294). -/
def subtractFromDate (x : Date) (months : Int) (y : DayTime) (response : Response) : Outcome :=
  match cloneDate x with
  | none => .outOfRange
  | some new =>
    finishSum (canonicalizeMonthYear { new with month := new.month - months } response)
      (-y.days) (-y.seconds) (-y.microseconds)

/-- `\-` of two dates (durations.dylan:280-284). -/
def subtractDates (x y : Date) : DayTime :=
  encodeDayTime ((universalOf x).1 - (universalOf y).1) 0 0
    ((universalOf x).2 - (universalOf y).2) (x.microseconds - y.microseconds)

end Verif.Date
