/-
C59: dates as text.
-/
import Verif.Date.TextLemmas

namespace Verif.Date

/-- C59, partial: the strict parser of ISO 8601 accepts exactly the texts of the grammar, and gives
    them the meaning the grammar gives; the parser that is not strict accepts all of them with the
    same meaning, also with the separators left out or a space where one is allowed. Partial since
    the grammar bounds the fraction by six digits and allows none, see `fraction_violated`, and since
    the parser that is not strict accepts more, see `lax_spaces_violated`. -/
theorem iso8601_partial (s : List Char) (f : Fields) :
    (splitIso8601 true s = some f ↔ IsoText true s f) ∧
      (IsoText false s f → splitIso8601 false s = some f) :=
  ⟨⟨splitIso8601_sound, splitIso8601_complete⟩, splitIso8601_complete⟩

/-- C59: a text that the strict parser accepts is accepted by the other with the same meaning. -/
theorem strict_implies_lax (s : List Char) (d : Date) (h : parseIso8601 true s = some d) :
    parseIso8601 false s = some d := by
  have sep : ∀ {c : Char} {s : List Char}, Sep true c s → Sep false c s := by
    rintro c s (h | h)
    · exact Or.inl h
    · exact absurd h.1 (by simp)
  have gap : ∀ {s : List Char}, Gap true s → Gap false s := by
    rintro s (h | h)
    · exact Or.inl h
    · exact absurd h.1 (by simp)
  have zone : ∀ {s : List Char} {z : Int}, ZoneText true s z → ZoneText false s z := by
    intro s z h
    cases h with
    | utc h1 h2 => exact .utc (gap h1) h2
    | east h1 h2 h3 h4 => exact .east (gap h1) h2 (sep h3) h4
    | west h1 h2 h3 h4 => exact .west (gap h1) h2 (sep h3) h4
  have secs : ∀ {t : List Char} {s us z : Int}, SecondsText true t s us z →
      SecondsText false t s us z := by
    intro t s us z h
    cases h with
    | none h1 => exact .none (zone h1)
    | seconds h1 h2 h3 => exact .seconds (sep h1) h2 (zone h3)
    | fraction h1 h2 h3 h4 h5 => exact .fraction (sep h1) h2 h3 h4 (zone h5)
  have iso : ∀ {f : Fields}, IsoText true s f → IsoText false s f := by
    intro f h
    cases h with
    | year h1 => exact .year h1
    | month h1 h2 h3 => exact .month h1 (sep h2) h3
    | day h1 h2 h3 h4 h5 => exact .day h1 (sep h2) h3 (sep h4) h5
    | time h1 h2 h3 h4 h5 h6 h7 h8 h9 h10 =>
      refine .time h1 (sep h2) h3 (sep h4) h5 ?_ h7 (sep h8) h9 (secs h10)
      rcases h6 with h | h | h
      · exact Or.inl h
      · exact Or.inr (Or.inl h)
      · exact absurd h.1 (by simp)
  unfold parseIso8601 at h ⊢
  cases hs : splitIso8601 true s with
  | none => rw [hs] at h; exact absurd h (by simp)
  | some f =>
    rw [hs] at h
    rw [splitIso8601_complete (iso (splitIso8601_sound hs))]
    exact h

example : parseIso8601 true "1997-07-16T19:20:30.45+01:00".toList =
      some ⟨1997, 7, 16, 19, 20, 30, 450000, 60, none⟩ ∧
    parseIso8601 true "1997-07".toList = some ⟨1997, 7, 1, 0, 0, 0, 0, 0, none⟩ ∧
    parseIso8601 true "19970716T192030Z".toList = none ∧
    parseIso8601 false "19970716 192030 -0530".toList =
      some ⟨1997, 7, 16, 19, 20, 30, 0, -330, none⟩ ∧
    parseIso8601 true "1997-02-29".toList = none := by decide +kernel

/-- C59: `parse-iso8601-string` reads what `as-iso8601-string` writes: the same date in the same time
    zone, without the microseconds. -/
theorem iso8601_roundtrip (d : Date) (hd : d.InRange) (hyear : 1800 ≤ d.year ∧ d.year ≤ 2199)
    (hzone : -1440 ≤ d.zone ∧ d.zone ≤ 1440) (strict : Bool) (precision : Int) :
    parseIso8601 strict (asIso8601 d precision) =
      some { d with microseconds := 0, universal := none } := by
  obtain ⟨⟨r1, r2, r3, r4⟩, r5, r6, r7, r8, r9, r10, r11, r12⟩ := hd
  have hb := monthLength_bounds d.year d.month
  dsimp only at r1 r2 r3 r4
  have ez : ZoneText strict (formatDirective d 'z' true) d.zone := by
    have h1 := wrap_digits (i := (d.zone.natAbs : Int) / 60) (by omega) (by omega)
    have h2 := wrap_digits (i := (d.zone.natAbs : Int) % 60) (by omega) (by omega)
    by_cases hn : d.zone < 0
    · have := ZoneText.west (strict := strict) (g := []) (Or.inl rfl) h1 (Or.inl rfl) h2
      rw [show -(60 * ((d.zone.natAbs : Int) / 60) + (d.zone.natAbs : Int) % 60) = d.zone by omega]
        at this
      simpa [formatDirective, hn] using this
    · have := ZoneText.east (strict := strict) (g := []) (Or.inl rfl) h1 (Or.inl rfl) h2
      rw [show (60 * ((d.zone.natAbs : Int) / 60) + (d.zone.natAbs : Int) % 60) = d.zone by omega]
        at this
      simpa [formatDirective, hn] using this
  have h := IsoText.time (strict := strict) (t := 'T') (year_text hyear.1 hyear.2).1 (Or.inl rfl)
    (wrap_digits (i := d.month) (by omega) (by omega)) (Or.inl rfl)
    (wrap_digits (i := d.day) (by omega) (by omega)) (Or.inl rfl)
    (wrap_digits (i := d.hours) (by omega) (by omega)) (Or.inl rfl)
    (wrap_digits (i := d.minutes) (by omega) (by omega))
    (SecondsText.seconds (Or.inl rfl) (wrap_digits (i := d.seconds) (by omega) (by omega)) ez)
  have e : asIso8601 d precision = decimal d.year ++ (['-'] ++ (wrap '0' d.month ++ (['-'] ++
      (wrap '0' d.day ++ 'T' :: (wrap '0' d.hours ++ ([':'] ++ (wrap '0' d.minutes ++ ([':'] ++
        (wrap '0' d.seconds ++ formatDirective d 'z' true))))))))) := by
    have ef : "%Y-%m-%dT%H:%M:%S%:z".toList = ['%', 'Y', '-', '%', 'm', '-', '%', 'd', 'T', '%', 'H',
      ':', '%', 'M', ':', '%', 'S', '%', ':', 'z'] := by decide +kernel
    unfold asIso8601 formatDate
    rw [ef]
    simp only [formatLoop, and_self, if_true, and_false, if_false, reduceCtorEq, Char.reduceEq,
      and_true, Bool.true_eq_false, Bool.false_eq_true, formatDirective, List.cons_append,
      List.nil_append, List.append_assoc, List.append_nil]
  unfold parseIso8601
  rw [e, splitIso8601_complete h]
  exact clone_spec (d := { d with microseconds := 0, universal := none })
    ⟨⟨r1, r2, r3, r4⟩, r5, r6, r7, r8, r9, r10, by dsimp only; omega, by dsimp only; omega⟩
    ⟨hyear.1, by dsimp only; omega⟩ hzone

example : asIso8601 ⟨2024, 2, 29, 5, 6, 7, 8, -330, none⟩ 0 =
    "2024-02-29T05:06:07-05:30".toList := by decide +kernel

/-- A fraction needs one or more digits by the documentation; none is accepted, and more than six are
    refused. -/
theorem fraction_violated :
    parseIso8601 true "2024-01-01T10:20:30.Z".toList = some ⟨2024, 1, 1, 10, 20, 30, 0, 0, none⟩ ∧
      parseIso8601 true "2024-01-01T10:20:30.1234567Z".toList = none := by decide +kernel

/-- The parser that is not strict accepts spaces at places the documentation does not name: between
    minutes and seconds, and between the digits of a fraction. -/
theorem lax_spaces_violated :
    parseIso8601 false "2024-01-01 10:20 30.1 2Z".toList =
      some ⟨2024, 1, 1, 10, 20, 30, 120000, 0, none⟩ := by decide +kernel

/-- `as-iso8601-string` does not write Greenwich time, and writes no fraction if `precision:` asks
    for one. -/
theorem as_iso8601_violated :
    asIso8601 ⟨2024, 1, 1, 10, 20, 30, 120000, 60, none⟩ 3 =
      "2024-01-01T10:20:30+01:00".toList := by decide +kernel

/-- C59: `format-date` copies every character but `%`, and replaces each directive by its text; a
    colon changes only the directive it stands in. -/
theorem format_date_compositional (d : Date) (r : List Char) (c : Char) :
    (c ≠ '%' → formatDate (c :: r) d = c :: formatDate r d) ∧
    (c ≠ ':' → formatDate ('%' :: c :: r) d = formatDirective d c false ++ formatDate r d) ∧
    (c ≠ ':' → formatDate ('%' :: ':' :: c :: r) d = formatDirective d c true ++ formatDate r d) := by
  refine ⟨fun h => ?_, fun h => ?_, fun h => ?_⟩
  · simp [formatDate, formatLoop, h]
  · simp [formatDate, formatLoop, h]
  · simp [formatDate, formatLoop, h]

/-- C59: what the numeric directives write, for every date in range: the hours, minutes, seconds,
    month and day in two digits, the year in four, and the time zone as a sign, two digits of hours,
    a colon if asked for, and two digits of minutes. -/
theorem format_directive_spec (d : Date) (hd : d.InRange) (hyear : 1800 ≤ d.year ∧ d.year ≤ 2199)
    (hzone : -1440 ≤ d.zone ∧ d.zone ≤ 1440) (dots : Bool) :
    Digits 4 d.year (formatDirective d 'Y' dots) ∧ Digits 2 d.month (formatDirective d 'm' dots) ∧
    Digits 2 d.day (formatDirective d 'd' dots) ∧ Digits 2 d.hours (formatDirective d 'H' dots) ∧
    Digits 2 d.minutes (formatDirective d 'M' dots) ∧
    Digits 2 d.seconds (formatDirective d 'S' dots) ∧
    (∃ sign hs ms h m, formatDirective d 'z' dots =
        sign :: (hs ++ (if dots then [':'] else []) ++ ms) ∧ Digits 2 h hs ∧ Digits 2 m ms ∧
      m < 60 ∧ ((sign = '+' ∧ d.zone = 60 * h + m) ∨ (sign = '-' ∧ d.zone = -(60 * h + m)))) := by
  obtain ⟨⟨r1, r2, r3, r4⟩, r5, r6, r7, r8, r9, r10, r11, r12⟩ := hd
  have hb := monthLength_bounds d.year d.month
  dsimp only at r1 r2 r3 r4
  refine ⟨(year_text hyear.1 hyear.2).1, wrap_digits (by omega) (by omega),
    wrap_digits (by omega) (by omega), wrap_digits (by omega) (by omega),
    wrap_digits (by omega) (by omega), wrap_digits (by omega) (by omega), ?_⟩
  refine ⟨if d.zone < 0 then '-' else '+', _, _, (d.zone.natAbs : Int) / 60,
    (d.zone.natAbs : Int) % 60, rfl, wrap_digits (by omega) (by omega),
    wrap_digits (by omega) (by omega), by omega, ?_⟩
  by_cases h : d.zone < 0
  · rw [if_pos h]; exact Or.inr ⟨rfl, by omega⟩
  · rw [if_neg h]; exact Or.inl ⟨rfl, by omega⟩

example : formatDate "%:z %z %% %d".toList ⟨2024, 5, 6, 0, 0, 0, 0, -90, none⟩ =
    "-01:30 -0130 % 06".toList := by decide +kernel

/-- C59, partial: `parse-date-string` reads back what `format-date` writes, for every control string
    of characters that stand for themselves and of directives for the year, month, day, hours,
    minutes and seconds, if it has one for each of them. The date is in the local time zone. Missing:
    the other directives, see the theorems below. -/
theorem format_parse_partial (d : Date) (hd : d.InRange) (hyear : 1800 ≤ d.year ∧ d.year ≤ 2199)
    (ps : List Piece) (hp : ∀ p ∈ ps, p.Plain) (hc : Complete ps) (localZone : Int) :
    parseDateString localZone (formatDate (control ps) d) (control ps) =
      some { d with microseconds := 0, zone := localZone, universal := none } := by
  unfold parseDateString formatDate
  rw [loop_roundtrip hd hyear.1 hyear.2 ps _ hp, result_eq]
  obtain ⟨c1, c2, c3, c4, c5, c6⟩ := hc
  simp only [if_pos c1, if_pos c2, if_pos c3, if_pos c4, if_pos c5, if_pos c6]

example : Complete [.directive 'e', .literal ' ', .directive 'b', .literal ' ', .directive 'Y',
      .directive '%', .directive 'k', .literal ':', .directive 'M', .literal ':', .directive 'S'] ∧
    parseDateString 60 " 5 May 2024% 7:08:09".toList "%e %b %Y%%%k:%M:%S".toList =
      some ⟨2024, 5, 5, 7, 8, 9, 0, 60, none⟩ := by decide +kernel

/-- With the time zone directive at its usual place, the end, the fields read before it are taken for
    local ones and shifted: the result is five hours off. -/
theorem parse_zone_violated :
    formatDate "%Y-%m-%dT%H:%M:%S%:z".toList ⟨2024, 1, 1, 12, 0, 0, 0, -300, none⟩ =
        "2024-01-01T12:00:00-05:00".toList ∧
      parseDateString 0 "2024-01-01T12:00:00-05:00".toList "%Y-%m-%dT%H:%M:%S%:z".toList =
        some ⟨2024, 1, 1, 7, 0, 0, 0, -300, none⟩ := by decide +kernel

/-- The sign of a time zone is applied to its hours only: `-05:30` is read as -270 minutes. -/
theorem parse_zone_minutes_violated :
    (parseDateString 0 "-0530 2024".toList "%z %Y".toList).map (·.zone) = some (-270) := by
  decide +kernel

/-- The full name of a month is not read back if it stands at the end: "January" is tried first and
    needs seven characters. -/
theorem parse_month_name_violated :
    formatDate "%d %B".toList ⟨2024, 5, 15, 0, 0, 0, 0, 0, none⟩ = "15 May".toList ∧
      parseDateString 0 "15 May".toList "%d %B".toList = none := by decide +kernel

/-- The directives `%T`, `%f`, `%F`, `%a` and `%A` read nothing: the text that `as-rfc1123-string`
    writes cannot be read back with the same control string. -/
theorem parse_ignored_violated :
    asRfc1123 ⟨2024, 1, 1, 12, 0, 0, 0, 0, none⟩ = "Mon, 01 Jan 2024 12:00:00 +0000".toList ∧
      parseDateString 0 "Mon, 01 Jan 2024 12:00:00 +0000".toList
        "%a, %d %b %Y %H:%M:%S %z".toList = none ∧
      parseDateString 0 "12:34:56".toList "%T".toList =
        some ⟨1970, 1, 1, 0, 0, 0, 0, 0, none⟩ := by decide +kernel

/-- The short year 70 is written for 1970 and read as 2070. -/
theorem parse_short_year_violated :
    formatDate "%y".toList ⟨1970, 1, 1, 0, 0, 0, 0, 0, none⟩ = "70".toList ∧
      (parseDateString 0 "70".toList "%y".toList).map (·.year) = some 2070 := by decide +kernel

/-- The milliseconds are rounded to a thousand and then cut to three digits: 999.6 milliseconds are
    written as 000. -/
theorem format_milliseconds_violated :
    formatDate "%S.%F".toList ⟨2024, 1, 1, 0, 0, 59, 999600, 0, none⟩ = "59.000".toList := by
  decide +kernel

end Verif.Date
