/-
Model of the text forms of dates: /repo/sources/system/date.dylan:325-656.

Characters are byte characters. Simplification: every error is `none`.
-/
import Verif.Date.Model
import Verif.IntString.Model

namespace Verif.Date

open Verif.IntString (integerToString stringToInteger)

/-- `integer-to-string` in base 10 with its default arguments (modelled in `Verif.IntString`). -/
def decimal (n : Int) : List Char :=
  match integerToString n 10 0 '0' false with
  | some (.ok s) => s
  | _ => []

/-- The local method `wrap` of `format-date` (date.dylan:349-352). -/
def wrap (fill : Char) (i : Int) : List Char := if i < 10 then fill :: decimal i else decimal i

/-- The local method `format-integer` of `format-date` (date.dylan:353-360): it fills the string from
    the end. -/
def formatInteger : Nat → Int → List Char
  | 0, _ => []
  | length + 1, n => formatInteger length (n / 10) ++ [Char.ofNat (48 + (n % 10).toNat)]

/-- `$month-names` (date.dylan:179-181). -/
def monthNames : List String :=
  ["January", "February", "March", "April", "May", "June", "July", "August", "September", "October",
    "November", "December"]

/-- `$short-month-names` (date.dylan:337-339). -/
def shortMonthNames : List String :=
  ["Jan", "Feb", "Mar", "Apr", "May", "Jun", "Jul", "Aug", "Sep", "Oct", "Nov", "Dec"]

/-- `$day-of-week-names` (date.dylan:331-335). -/
def dayName : Weekday → String
  | .monday => "Monday" | .tuesday => "Tuesday" | .wednesday => "Wednesday"
  | .thursday => "Thursday" | .friday => "Friday" | .saturday => "Saturday" | .sunday => "Sunday"

/-- `$short-day-of-week-names` (date.dylan:325-329). -/
def shortDayName : Weekday → String
  | .monday => "Mon" | .tuesday => "Tue" | .wednesday => "Wed"
  | .thursday => "Thu" | .friday => "Fri" | .saturday => "Sat" | .sunday => "Sun"

/-- What `format-date` writes for a directive (the `select` at date.dylan:373-399). Simplification: a
    month outside 1 to 12 writes nothing, the code signals an error. -/
def formatDirective (d : Date) (char : Char) (useDots : Bool) : List Char :=
  match char with
  | 'Y' => decimal d.year
  | 'y' => formatInteger 2 d.year
  | 'H' => wrap '0' d.hours
  | 'k' => wrap ' ' d.hours
  | 'M' => wrap '0' d.minutes
  | 'S' => wrap '0' d.seconds
  | 'f' => formatInteger 6 d.microseconds
  | 'F' => formatInteger 3 (roundDiv d.microseconds 1000)
  | 'T' => wrap '0' d.hours ++ ':' :: (wrap '0' d.minutes ++ ':' :: wrap '0' d.seconds)
  | 'm' => wrap '0' d.month
  | 'd' => wrap '0' d.day
  | 'e' => wrap ' ' d.day
  | 'A' => ((dayOfWeek d.year d.month d.day).map (fun w => (dayName w).toList)).getD []
  | 'a' => ((dayOfWeek d.year d.month d.day).map (fun w => (shortDayName w).toList)).getD []
  | 'B' => ((monthNames[(d.month - 1).toNat]?).map (·.toList)).getD []
  | 'b' => ((shortMonthNames[(d.month - 1).toNat]?).map (·.toList)).getD []
  | 'z' => (if d.zone < 0 then '-' else '+') :: (wrap '0' ((d.zone.natAbs : Int) / 60) ++
      (if useDots then [':'] else []) ++ wrap '0' ((d.zone.natAbs : Int) % 60))
  | 'n' => ['\n']
  | '%' => ['%']
  | c => [c]

/-- The loop of `format-date` (date.dylan:364-405), with the variables `format?` and `use-dots?`. -/
def formatLoop (d : Date) : List Char → Bool → Bool → List Char
  | [], _, _ => []
  | char :: rest, format, useDots =>
    if char = '%' ∧ format = false then formatLoop d rest true useDots
    else if char = ':' ∧ format = true then formatLoop d rest format true
    else if format = true then formatDirective d char useDots ++ formatLoop d rest false false
    else char :: formatLoop d rest format useDots

/-- `format-date` (date.dylan:343-407). -/
def formatDate (format : List Char) (d : Date) : List Char := formatLoop d format false false

/-- `as-iso8601-string` (date.dylan:419-422). The argument `precision:` is not used. -/
def asIso8601 (d : Date) (_precision : Int) : List Char :=
  formatDate "%Y-%m-%dT%H:%M:%S%:z".toList d

/-- `as-rfc1123-string` (date.dylan:414-417). -/
def asRfc1123 (d : Date) : List Char := formatDate "%a, %d %b %Y %H:%M:%S %z".toList d

/-! ### `parse-iso8601-string` -/

/-- The local method `read-integer` (date.dylan:542-553). -/
def readInteger : Nat → Int → List Char → Option (Int × List Char)
  | 0, value, s => some (value, s)
  | _ + 1, _, [] => none
  | n + 1, value, c :: s =>
    if c < '0' ∨ c > '9' then none
    else readInteger n (10 * value + c.toNat - 48) s

/-- The local method `maybe-skip` (date.dylan:554-560). -/
def maybeSkip (strict : Bool) (char : Char) (s : List Char) : Option (List Char) :=
  if s.head? = some char then some s.tail
  else if strict then none else some s

/-- The local method `zone?` (date.dylan:561-567): its value and what is left after it. -/
def zoneAhead (strict : Bool) (s : List Char) : Bool × List Char :=
  let s := if strict = false ∧ s.head? = some ' ' then s.tail else s
  (decide (s.head? = some 'Z' ∨ s.head? = some 'z' ∨ s.head? = some '+' ∨ s.head? = some '-'), s)

/-- The loop over the fraction (date.dylan:603-614): the precision, the digits read and what is
    left. Simplification: `fuel` bounds the turns; it is the length of the rest, and a turn takes a
    character. -/
def readFraction (strict : Bool) : Nat → Nat → Int → List Char → Option (Nat × Int × List Char)
  | fuel, precision, value, s =>
    if (zoneAhead strict s).1 then some (precision, value, (zoneAhead strict s).2)
    else
      match fuel, (zoneAhead strict s).2 with
      | 0, _ => none
      | _, [] => none
      | fuel + 1, c :: rest =>
        if c < '0' ∨ c > '9' then none
        else if precision + 1 > 6 then none
        else readFraction strict fuel (precision + 1) (10 * value + c.toNat - 48) rest

/-- The time zone and the end of the text (date.dylan:618-635). -/
def splitZone (strict : Bool) (s : List Char) : Option Int :=
  if (zoneAhead strict s).1 then
    match (zoneAhead strict s).2 with
    | [] => none
    | tzi :: s =>
      if tzi = 'z' ∨ tzi = 'Z' then (if s = [] then some 0 else none)
      else do
        let (h, s) ← readInteger 2 0 s
        let s ← maybeSkip strict ':' s
        let (m, s) ← readInteger 2 0 s
        if s = [] then some (if tzi = '-' then 0 - (60 * h + m) else 60 * h + m) else none
  else none

/-- The seconds and the fraction (date.dylan:598-617): seconds, microseconds and what is left. -/
def splitSeconds (strict : Bool) (s : List Char) : Option (Int × Int × List Char) :=
  if (zoneAhead strict s).1 then some (0, 0, (zoneAhead strict s).2)
  else do
    let s ← maybeSkip strict ':' (zoneAhead strict s).2
    let (sec, s) ← readInteger 2 0 s
    if s.head? = some '.' then do
      let (precision, value, s) ← readFraction strict s.tail.length 0 0 s.tail
      some (sec, value * 10 ^ (6 - precision), s)
    else some (sec, 0, s)

/-- The values of `split-iso8601-string`. -/
structure Fields where
  year : Int
  month : Int
  day : Int
  hours : Int
  minutes : Int
  seconds : Int
  microseconds : Int
  zone : Int
deriving DecidableEq, Repr

/-- The time of day and the zone (date.dylan:595-635). -/
def splitTime (strict : Bool) (year month day : Int) (s : List Char) : Option Fields := do
  let (hours, s) ← readInteger 2 0 s
  let s ← maybeSkip strict ':' s
  let (minutes, s) ← readInteger 2 0 s
  let (seconds, microseconds, s) ← splitSeconds strict s
  let zone ← splitZone strict s
  some ⟨year, month, day, hours, minutes, seconds, microseconds, zone⟩

/-- The day and the rest (date.dylan:586-594). -/
def splitDay (strict : Bool) (year month : Int) (s : List Char) : Option Fields := do
  let s ← maybeSkip strict '-' s
  let (day, s) ← readInteger 2 0 s
  if s = [] then some ⟨year, month, day, 0, 0, 0, 0, 0⟩
  else if s.head? = some 'T' ∨ s.head? = some 't' ∨ (strict = false ∧ s.head? = some ' ') then
    splitTime strict year month day s.tail
  else none

/-- The month and the rest (date.dylan:583-585). -/
def splitMonth (strict : Bool) (year : Int) (s : List Char) : Option Fields := do
  let s ← maybeSkip strict '-' s
  let (month, s) ← readInteger 2 0 s
  if s = [] then some ⟨year, month, 1, 0, 0, 0, 0, 0⟩ else splitDay strict year month s

/-- `split-iso8601-string` (date.dylan:520-638). `check-done` (578-580) leaves the block with the
    fields as they are. -/
def splitIso8601 (strict : Bool) (s : List Char) : Option Fields := do
  let (year, s) ← readInteger 4 0 s
  if s = [] then some ⟨year, 1, 1, 0, 0, 0, 0, 0⟩ else splitMonth strict year s

/-- `parse-iso8601-string` (date.dylan:640-654). -/
def parseIso8601 (strict : Bool) (s : List Char) : Option Date :=
  match splitIso8601 strict s with
  | none => none
  | some f => makeDate f.year f.month f.day f.hours f.minutes f.seconds f.microseconds f.zone

/-! ### `parse-date-string` -/

/-- `read(date-stream, n)`: an error if there are fewer characters left. -/
def readText (n : Nat) (s : List Char) : Option (List Char × List Char) :=
  if s.length < n then none else some (s.take n, s.drop n)

/-- `string-to-integer` with its default arguments (modelled in `Verif.IntString`). -/
def toInteger (s : List Char) : Option Int :=
  match stringToInteger s 10 0 none none with
  | .ok (n, _) => some n
  | _ => none

/-- The text of `n` characters as a number. -/
def readNumber (n : Nat) (s : List Char) : Option (Int × List Char) := do
  let (t, s) ← readText n s
  let k ← toInteger t
  some (k, s)

/-- The local method `parse-month` (date.dylan:432-443): `month` is the number of the next name to
    try. The position is set back after a name that does not match; `read` signals an error if fewer
    characters are left than the name has. No name matches: an error, since `#f` is stored. -/
def parseMonth : List String → Int → List Char → Option (Int × List Char)
  | [], _, _ => none
  | name :: names, month, s =>
    match readText name.toList.length s with
    | none => none
    | some (t, rest) => if t = name.toList then some (month, rest) else parseMonth names (month + 1) s

/-- The time zone directive (date.dylan:465-474). -/
def parseZone (useDots : Bool) (s : List Char) : Option (Int × List Char) := do
  let (sign, s) ← readText 1 s
  let (hours, s) ← readText 2 s
  let (_, s) ← readText (if useDots then 1 else 0) s
  let (minutes, s) ← readText 2 s
  let k ← toInteger (sign ++ ['1'])
  let h ← toInteger hours
  let m ← toInteger minutes
  some (k * h * 60 + m, s)

/-- What `parse-date-string` does for a directive (the `select` at date.dylan:451-477): the date and
    what is left of the text. -/
def parseDirective (d : Date) (char : Char) (useDots : Bool) (s : List Char) :
    Option (Date × List Char) :=
  match char with
  | 'Y' => (readNumber 4 s).map fun r => ({ d with year := r.1 }, r.2)
  | 'y' => (readNumber 2 s).map fun r => ({ d with year := r.1 + (if r.1 > (70 : Int) then (1900 : Int) else 2000) }, r.2)
  | 'H' => (readNumber 2 s).map fun r => ({ d with hours := r.1 }, r.2)
  | 'k' => (readNumber 2 s).map fun r => ({ d with hours := r.1 }, r.2)
  | 'M' => (readNumber 2 s).map fun r => ({ d with minutes := r.1 }, r.2)
  | 'S' => (readNumber 2 s).map fun r => ({ d with seconds := r.1 }, r.2)
  | 'm' => (readNumber 2 s).map fun r => ({ d with month := r.1 }, r.2)
  | 'd' => (readNumber 2 s).map fun r => ({ d with day := r.1 }, r.2)
  | 'e' => (readNumber 2 s).map fun r => ({ d with day := r.1 }, r.2)
  | 'B' => (parseMonth monthNames 1 s).map fun r => ({ d with month := r.1 }, r.2)
  | 'b' => (parseMonth shortMonthNames 1 s).map fun r => ({ d with month := r.1 }, r.2)
  | 'z' => (parseZone useDots s).bind fun r => (setZone d r.1).map fun d => (d, r.2)
  | 'n' => (readText 1 s).map fun r => (d, r.2)
  | '%' => (readText 1 s).map fun r => (d, r.2)
  | _ => some (d, s)

/-- The loop of `parse-date-string` (date.dylan:445-484). -/
def parseLoop : List Char → Bool → Bool → Date → List Char → Option Date
  | [], _, _, d, _ => some d
  | char :: rest, format, useDots, d, s =>
    if char = '%' ∧ format = false then parseLoop rest true useDots d s
    else if char = ':' ∧ format = true then parseLoop rest format true d s
    else if format = true then
      match parseDirective d char useDots s with
      | none => none
      | some (d, s) => parseLoop rest false false d s
    else
      match readText 1 s with
      | none => none
      | some (_, s) => parseLoop rest format useDots d s

/-- `parse-date-string` (date.dylan:424-486). It begins with `make(<date>)` of 1 January 1970 in the
    local time zone (`local-time-zone-offset`, asked of the operating system). -/
def parseDateString (localZone : Int) (s format : List Char) : Option Date :=
  parseLoop format false false ⟨1970, 1, 1, 0, 0, 0, 0, localZone, none⟩ s

end Verif.Date
