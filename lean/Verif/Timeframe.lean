import Verif.Time

/-!
# Timeframes (estrade/mixins/timeframe.py)
-/

namespace Estrade

/-- `estrade.enums.Unit` (enums/__init__.py:40-64). -/
inductive Unit'
  | tick | second | minute | hour | day | week | month | year
  deriving DecidableEq, Repr

/-- `unit_quantity_modulo` (timeframe.py:40-47). -/
def Unit'.modulo : Unit' → Option ℤ
  | .tick => none
  | .second => some 60
  | .minute => some 60
  | .hour => some 12
  | .day => some 7
  | .week => some 1
  | .month => some 12
  | .year => none

/-- `TimeframeMixin.__init__` / `_check_unit_consistency` (timeframe.py:13-50): TICK and YEAR are
not checked; otherwise `modulo % quantity` must be 0 (ZeroDivisionError for quantity 0).  `Int.fmod`
is Python's `%`. -/
def checkTimeframe (u : Unit') (q : ℤ) : Except PyErr Unit :=
  match u.modulo with
  | none => .ok ⟨⟩
  | some m =>
    if q = 0 then .error .zeroDiv
    else if m.fmod q ≠ 0 then .error .timeframe
    else .ok ⟨⟩

/-- `dt.replace(year=y, month=m, day=1, hour=0, ...)` (timeframe.py:137-145, 153-161): ValueError when
the year is not >= 1 or the month not in 1..12 (the upper year bound 9999 is in `Bounded`). -/
def replaceFirst (y m : ℤ) : Except PyErr ℤ :=
  if y < 1 ∨ m < 1 ∨ 12 < m then .error .value else .ok (midnight y m 1)

/-- `get_frame_start` (timeframe.py:52-63, 84-162) on wall clocks. Python `%` is `Int.fmod`. -/
def frameStart (u : Unit') (q : ℤ) (w : ℤ) : Except PyErr ℤ :=
  match u with
  | .tick => .ok w
  | .second =>
    if q = 0 then .error .zeroDiv
    else .ok (w - ((secondOf w).fmod q * secUs + microOf w))
  | .minute =>
    if q = 0 then .error .zeroDiv
    else .ok (w - ((minuteOf w).fmod q * minUs + secondOf w * secUs + microOf w))
  | .hour =>
    if q = 0 then .error .zeroDiv
    else .ok (w - ((hourOf w).fmod q * hourUs + minuteOf w * minUs + secondOf w * secUs + microOf w))
  | .day =>
    if q = 0 then .error .zeroDiv
    else .ok (w - ((weekdayOf w).fmod q * dayUs + hourOf w * hourUs + minuteOf w * minUs
                   + secondOf w * secUs + microOf w))
  | .week =>
    .ok (w - (weekdayOf w * dayUs + hourOf w * hourUs + minuteOf w * minUs
              + secondOf w * secUs + microOf w))
  | .month =>
    if q = 0 then .error .zeroDiv
    else replaceFirst (yearOf w) (monthOf w - (monthOf w - 1).fmod q)
  | .year =>
    if q = 0 then .error .zeroDiv
    else replaceFirst (yearOf w - (yearOf w).fmod q) 1

/-- dateutil `relativedelta(months=n)` added to a wall clock: month arithmetic, day clipped to the
length of the target month, time of day kept (the year range check is in `Bounded`). -/
def shiftMonths (w n : ℤ) : ℤ :=
  let i := yearOf w * 12 + (monthOf w - 1) + n
  let y := i / 12
  let m := i % 12 + 1
  let d := min (dayOf w) (daysInMonth (isLeap y) m)
  midnight y m d + timeOf w

/-- `Arrow.shift(**{unit}s=q)` before resolution of imaginary times (timeframe.py:77). -/
def shiftUnit (u : Unit') (q : ℤ) (w : ℤ) : ℤ :=
  match u with
  | .tick => w
  | .second => w + q * secUs
  | .minute => w + q * minUs
  | .hour => w + q * hourUs
  | .day => w + q * dayUs
  | .week => w + q * (7 * dayUs)
  | .month => shiftMonths w q
  | .year => shiftMonths w (q * 12)

/-- `get_frame_end` (timeframe.py:65-78).  `_timedelta` is `None` only for TICK. -/
def frameEnd (z : Zone) (u : Unit') (q : ℤ) (s : ℤ) : ℤ :=
  if u = .tick then s else z.resolve (shiftUnit u q s)

end Estrade
