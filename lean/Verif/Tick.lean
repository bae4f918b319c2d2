import Verif.Time

/-!
# Ticks (estrade/tick.py, estrade/mixins/timed.py)
-/

namespace Estrade

/-- A market quote (tick.py:14-58), already validated. -/
structure Tick where
  dt : DT
  bid : ℚ
  ask : ℚ
  deriving DecidableEq

/-- A Python value passed as `bid`/`ask`: int (bool is one), finite float, or anything else. -/
inductive PyVal
  | int (n : ℤ)
  | float (x : ℚ)
  | other
  deriving DecidableEq

/-- A datetime argument: with tzinfo, or naive / not a datetime (timed.py:32). -/
inductive RawDT
  | aware (d : DT)
  | naive

section
variable [Arith]

/-- The `ask`/`bid` setters: `check_value` then `float(v)` (tick.py:64-73, 85-89, 101-105). -/
def PyVal.toFloat : PyVal → Except PyErr ℚ
  | .int n => .ok (fl n)
  | .float x => .ok x
  | .other => .error .tick

/-- `TimedMixin.datetime` setter (timed.py:24-41). -/
def RawDT.check : RawDT → Except PyErr DT
  | .aware d => .ok d
  | .naive => .error .time

/-- `Tick.__init__` (tick.py:30-61). -/
def Tick.new (datetime : RawDT) (bid ask : PyVal) : Except PyErr Tick := do
  let dt ← datetime.check
  let a ← ask.toFloat
  let b ← bid.toFloat
  if a < b then .error .tick else .ok ⟨dt, b, a⟩

/-- `Tick.bid` setter on an existing tick (tick.py:101-105): no order check. -/
def Tick.setBid (t : Tick) (v : PyVal) : Except PyErr Tick := do
  let b ← v.toFloat
  .ok { t with bid := b }

/-- `Tick.spread` (tick.py:107-120). -/
def Tick.spread (t : Tick) : ℚ := rnd (fsub t.ask t.bid)

/-- `Tick.value` (tick.py:122-135). -/
def Tick.value (t : Tick) : ℚ := rnd (fadd t.bid (fdiv t.spread 2))

end

/-- Placeholder tick of a new epic (epic.py:87-91): 1900-01-01 00:00:00 UTC, bid = ask = 0. -/
def Tick.epoch : Tick :=
  ⟨⟨midnight 1900 1 1, midnight 1900 1 1, 0⟩, 0, 0⟩

end Estrade
