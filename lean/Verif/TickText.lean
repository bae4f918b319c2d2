import Verif.CsvText
import Verif.World

/-!
# Ticks and epics as text and as dictionaries
(estrade/tick.py:137-178, estrade/epic.py:97-104, estrade/mixins/timed.py:43-51)

Floats are written by `repr`, here the parameter `num`.  `strftime("%Y")` of glibc does not pad years (CPython before 3.14 on Linux).
-/

namespace Estrade

/-- `datetime.strftime("%Y-%m-%d %H:%M:%S")` (tick.py:150, 171): fields of the wall clock. -/
def strfText (d : DT) : Text :=
  natText (yearOf d.wall).toNat ++ '-' :: padText 2 (monthOf d.wall).toNat ++ '-' :: padText 2 (dayOf d.wall).toNat ++
    ' ' :: padText 2 (hourOf d.wall).toNat ++ ':' :: padText 2 (minuteOf d.wall).toNat ++
    ':' :: padText 2 (secondOf d.wall).toNat

/-- A value of the dictionary of a tick. -/
inductive TickCell
  | date (d : DT)
  | text (s : Text)
  | num (x : ℚ)
  deriving DecidableEq

/-- `TimedMixin.datetime_utc` (timed.py:43-51). -/
def Tick.datetimeUtc (t : Tick) : DT := t.dt.to Zone.utc

section
variable [Arith]

/-- `Tick.__str__` (tick.py:149-152). -/
def Tick.text (num : ℚ → Text) (t : Tick) : Text :=
  strfText t.dt ++ " : ".toList ++ num t.value ++ ' ' :: "(bid: ".toList ++ num t.bid ++ ", ask: ".toList ++ num t.ask ++
    ", spread: ".toList ++ num t.spread ++ ")".toList

/-- `Tick.asdict` (tick.py:170-178). -/
def Tick.asdict (t : Tick) (datetimeToStr : Bool) : Dict TickCell :=
  [("datetime", if datetimeToStr then .text (strfText t.dt) else .date t.dt), ("bid", .num t.bid), ("ask", .num t.ask),
    ("spread", .num t.spread), ("value", .num t.value)]

end

/-- `Epic.__str__` (epic.py:104); `name` gives the names of timezones. -/
def Epic.text (name : ℕ → Text) (ep : Epic) : Text := "Epic: ".toList ++ ep.ref.toList ++ " on timezone ".toList ++ name ep.zone.id

end Estrade
