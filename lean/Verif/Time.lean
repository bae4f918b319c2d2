import Verif.Py

/-!
# Datetimes, calendar and timezones

A wall-clock datetime (year, month, day, hour, minute, second, microsecond) is encoded as one
integer: microseconds since midnight of proleptic ordinal 0, so `w / dayUs` is Python's
`date.toordinal()` and `w % dayUs` the time of day.  `arrow` 0.17 and `dateutil` are external
libraries; what is assumed of them is stated on each definition.
-/

namespace Estrade

def secUs : ℤ := 1000000
def minUs : ℤ := 60 * secUs
def hourUs : ℤ := 60 * minUs
def dayUs : ℤ := 24 * hourUs

/-- `date.toordinal()`. -/
def ordOf (w : ℤ) : ℤ := w / dayUs
/-- `datetime.time()` as microseconds of the day (used in epic.py:194). -/
def timeOf (w : ℤ) : ℤ := w % dayUs
/-- `datetime.hour` (timeframe.py:104). -/
def hourOf (w : ℤ) : ℤ := timeOf w / hourUs
/-- `datetime.minute` (timeframe.py:96). -/
def minuteOf (w : ℤ) : ℤ := timeOf w / minUs % 60
/-- `datetime.second` (timeframe.py:89). -/
def secondOf (w : ℤ) : ℤ := timeOf w / secUs % 60
/-- `datetime.microsecond` (timeframe.py:90). -/
def microOf (w : ℤ) : ℤ := timeOf w % secUs
/-- `datetime.weekday()`, Monday = 0 (timeframe.py:113, epic.py:197); CPython: `(toordinal() + 6) % 7`. -/
def weekdayOf (w : ℤ) : ℤ := (ordOf w + 6) % 7

/-! ## Proleptic Gregorian calendar (CPython Lib/datetime.py) -/

/-- `_is_leap`. -/
def isLeap (y : ℤ) : Bool := y % 4 = 0 && (y % 100 ≠ 0 || y % 400 = 0)

/-- `_days_before_year`: days before 1 January of year `y`. -/
def daysBeforeYear (y : ℤ) : ℤ :=
  let p := y - 1
  p * 365 + p / 4 - p / 100 + p / 400

/-- `_DAYS_IN_MONTH` with the leap day (`_days_in_month`). -/
def daysInMonth (leap : Bool) (m : ℤ) : ℤ :=
  if m = 2 then (if leap then 29 else 28)
  else if m = 4 ∨ m = 6 ∨ m = 9 ∨ m = 11 then 30 else 31

/-- `_DAYS_BEFORE_MONTH` with the leap day (`_days_before_month`). -/
def daysBeforeMonth (leap : Bool) (m : ℤ) : ℤ :=
  (if m ≤ 1 then 0 else if m = 2 then 31 else if m = 3 then 59 else if m = 4 then 90
   else if m = 5 then 120 else if m = 6 then 151 else if m = 7 then 181 else if m = 8 then 212
   else if m = 9 then 243 else if m = 10 then 273 else if m = 11 then 304 else 334)
  + (if 2 < m ∧ leap then 1 else 0)

/-- `_ymd2ord`. -/
def ymd2ord (y m d : ℤ) : ℤ := daysBeforeYear y + daysBeforeMonth (isLeap y) m + d

structure YMD where
  y : ℤ
  m : ℤ
  d : ℤ
  deriving DecidableEq, Repr

/-- Month and day within a year from the 0-based day of the year (tail of `_ord2ymd`). -/
def monthDay (leap : Bool) (n : ℤ) : ℤ × ℤ :=
  let month := (n + 50) / 32
  let preceding := daysBeforeMonth leap month
  if n < preceding then
    let month' := month - 1
    (month', n - (preceding - daysInMonth leap month') + 1)
  else (month, n - preceding + 1)

/-- `_ord2ymd`: year, month, day of a day ordinal. -/
def ord2ymd (ord : ℤ) : YMD :=
  let n := ord - 1
  let n400 := n / 146097
  let n := n % 146097
  let n100 := n / 36524
  let n := n % 36524
  let n4 := n / 1461
  let n := n % 1461
  let n1 := n / 365
  let n := n % 365
  let year := n400 * 400 + 1 + n100 * 100 + n4 * 4 + n1
  if n1 = 4 ∨ n100 = 4 then ⟨year - 1, 12, 31⟩
  else
    let leap := decide (n1 = 3) && (decide (n4 ≠ 24) || decide (n100 = 3))
    let md := monthDay leap n
    ⟨year, md.1, md.2⟩

/-- `datetime.year` (timeframe.py:154). -/
def yearOf (w : ℤ) : ℤ := (ord2ymd (ordOf w)).y
/-- `datetime.month` (timeframe.py:138). -/
def monthOf (w : ℤ) : ℤ := (ord2ymd (ordOf w)).m
/-- `datetime.day`. -/
def dayOf (w : ℤ) : ℤ := (ord2ymd (ordOf w)).d

/-- Wall clock of midnight on a date. -/
def midnight (y m d : ℤ) : ℤ := ymd2ord y m d * dayUs

/-! ## Zones and zoned datetimes -/

/-- A timezone as used by the code: the UTC offset in force at each instant (what
`Arrow.to(tz)` applies, epic.py:244) and the adjustment `Arrow.shift` makes to a wall clock that
does not exist (dateutil `resolve_imaginary`, reached from timeframe.py:77). -/
structure Zone where
  id : ℕ
  off : ℤ → ℤ
  resolve : ℤ → ℤ

/-- A zone with a constant offset: every wall clock exists. -/
def Zone.Fixed (z : Zone) (c : ℤ) : Prop := (∀ u, z.off u = c) ∧ ∀ w, z.resolve w = w

/-- The default zone of an epic, "UTC" (epic.py:47). -/
def Zone.utc : Zone := ⟨0, fun _ => 0, fun w => w⟩

/-- America/Sao_Paulo around 4 November 2018, when clocks went from 00:00 to 01:00 (witness zone of the
theorems about clock changes; `resolve_imaginary` moves the missing hour forward by one hour). -/
def Zone.saoPaulo2018 : Zone :=
  ⟨1, fun u => if u < midnight 2018 11 4 + 3 * hourUs then -3 * hourUs else -2 * hourUs,
   fun w => if midnight 2018 11 4 ≤ w ∧ w < midnight 2018 11 4 + hourUs then w + hourUs else w⟩

/-- Europe/Paris in 2019: clocks went from 02:00 to 03:00 on 31 March and from 03:00 back to 02:00 on 27 October
(witness zone, accurate in that year only). -/
def Zone.paris2019 : Zone :=
  ⟨2, fun u => if midnight 2019 3 31 + hourUs ≤ u ∧ u < midnight 2019 10 27 + hourUs then 2 * hourUs else hourUs,
   fun w => if midnight 2019 3 31 + 2 * hourUs ≤ w ∧ w < midnight 2019 3 31 + 3 * hourUs then w + hourUs else w⟩

/-- An aware datetime (`arrow.Arrow`): its instant, its wall clock, its tzinfo. -/
structure DT where
  utc : ℤ
  wall : ℤ
  tz : ℕ
  deriving DecidableEq, Repr

/-- `Arrow.to(tz)` (epic.py:244). -/
def DT.to (d : DT) (z : Zone) : DT := ⟨d.utc, d.utc + z.off d.utc, z.id⟩

/-- `a < b` on aware datetimes: CPython compares wall clocks when both have the same tzinfo object
(which holds after conversion to the same zone, dateutil caches zones), instants otherwise.
Used in epic.py:245, strategy.py:65,131. -/
def DT.lt (a b : DT) : Bool := if a.tz = b.tz then a.wall < b.wall else a.utc < b.utc

end Estrade
