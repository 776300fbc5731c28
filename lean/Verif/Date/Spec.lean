/-
Specification of the calendar, of points in time and of lengths of time.
-/
import Verif.Date.Model

namespace Verif.Date

/-- A leap year of the Gregorian calendar. -/
def Leap (year : Int) : Prop := (4 ∣ year ∧ ¬ 100 ∣ year) ∨ 400 ∣ year

instance (year : Int) : Decidable (Leap year) := by unfold Leap; infer_instance

/-- The length of a month of the Gregorian calendar. -/
def monthLength (year month : Int) : Int :=
  if month = 2 then (if Leap year then 29 else 28)
  else if month = 4 ∨ month = 6 ∨ month = 9 ∨ month = 11 then 30 else 31

/-- A day of the (proleptic) Gregorian calendar. -/
structure Day where
  year : Int
  month : Int
  day : Int
deriving DecidableEq, Repr

/-- The day exists. -/
def Day.Exists (d : Day) : Prop :=
  1 ≤ d.month ∧ d.month ≤ 12 ∧ 1 ≤ d.day ∧ d.day ≤ monthLength d.year d.month

/-- The day after. -/
def Day.next (d : Day) : Day :=
  if d.day < monthLength d.year d.month then ⟨d.year, d.month, d.day + 1⟩
  else if d.month < 12 then ⟨d.year, d.month + 1, 1⟩ else ⟨d.year + 1, 1, 1⟩

/-- One day is before another. -/
def Day.Before (a b : Day) : Prop :=
  a.year < b.year ∨ (a.year = b.year ∧
    (a.month < b.month ∨ (a.month = b.month ∧ a.day < b.day)))

/-- The weekday after. -/
def Weekday.next : Weekday → Weekday
  | .sunday => .monday | .monday => .tuesday | .tuesday => .wednesday | .wednesday => .thursday
  | .thursday => .friday | .friday => .saturday | .saturday => .sunday

/-- A numbering of the days of the calendar: 1 January 1900 has number 0 and each day has a number
    one more than the day before. (`numbering_unique` shows that there is only one.) -/
def Numbering (number : Day → Int) : Prop :=
  number ⟨1900, 1, 1⟩ = 0 ∧ ∀ d : Day, d.Exists → number d.next = number d + 1

/-- All fields of a date are in range; the year may be any. -/
def Date.InRange (d : Date) : Prop :=
  Day.Exists ⟨d.year, d.month, d.day⟩ ∧ 0 ≤ d.hours ∧ d.hours < 24 ∧ 0 ≤ d.minutes ∧
    d.minutes < 60 ∧ 0 ≤ d.seconds ∧ d.seconds < 60 ∧ 0 ≤ d.microseconds ∧
    d.microseconds < 1000000

/-- The point in time a date stands for, in seconds since the beginning of 1900, Greenwich time: the
    local time less the offset of the time zone. -/
def Date.second (number : Day → Int) (d : Date) : Int :=
  number ⟨d.year, d.month, d.day⟩ * 86400 + d.hours * 3600 + d.minutes * 60 + d.seconds - d.zone * 60

/-- The point in time a date stands for, in microseconds. -/
def Date.instant (number : Day → Int) (d : Date) : Int :=
  d.second number * 1000000 + d.microseconds

/-- A date object whose two lazily filled slots, if filled, hold what they should. -/
def Date.Sound (d : Date) : Prop := d.universal = none ∨ d.universal = some (computeUniversalTime d)

/-- The length of a day/time duration in microseconds. -/
def DayTime.length (x : DayTime) : Int := (x.days * 86400 + x.seconds) * 1000000 + x.microseconds

/-- The parts of a duration have the same sign, as far as they are not zero, and the lower ones are
    less than one of the next higher. -/
def DayTime.Canonical (x : DayTime) : Prop :=
  ((0 ≤ x.days ∧ 0 ≤ x.seconds ∧ 0 ≤ x.microseconds) ∨
    (x.days ≤ 0 ∧ x.seconds ≤ 0 ∧ x.microseconds ≤ 0)) ∧
  -86400 < x.seconds ∧ x.seconds < 86400 ∧ -1000000 < x.microseconds ∧ x.microseconds < 1000000

end Verif.Date
