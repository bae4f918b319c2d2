import Verif.Frame

/-!
# Observations on indicator values
(estrade/graph/base_indicator.py:48-96, estrade/graph/indicators/*.py)
-/

namespace Estrade

section
variable [Arith]

/-- The parent frame of a value (`self.frame`). -/
def IndVal.parent (heap : List Frame) (v : IndVal) : Option Frame := heap[v.frame]?

/-- `BaseIndicatorValue.previous` (base_indicator.py:48-63). -/
def IndVal.previous (heap : List Frame) (v : IndVal) : Option IndVal :=
  prevValue heap v.ind.ref heap.length ((v.parent heap).bind Frame.prev)

/-- `BaseIndicatorValue.next` (base_indicator.py:65-76). -/
def IndVal.next (heap : List Frame) (v : IndVal) : Option IndVal :=
  (((v.parent heap).bind Frame.next).bind (fun i => heap[i]?)).bind (fun f => f.get v.ind.ref)

/-- `BaseIndicatorValue.closed` (base_indicator.py:88-96). -/
def IndVal.closed (heap : List Frame) (v : IndVal) : Bool :=
  match v.parent heap with
  | none => false
  | some f => f.closed

/-! ## Candles (candle_set.py) -/

/-- `estrade.enums.CandleColor` (enums/__init__.py:81-94). -/
inductive Color
  | green | black | red
  deriving DecidableEq, Repr

/-- `JapaneseCandle.open` (candle_set.py:161-169). -/
def jOpen (v : IndVal) : ℚ := rnd v.first.value
/-- `JapaneseCandle.high` (candle_set.py:171-179). -/
def jHigh (v : IndVal) : ℚ := rnd v.high.value
/-- `JapaneseCandle.low` (candle_set.py:181-189). -/
def jLow (v : IndVal) : ℚ := rnd v.low.value
/-- `JapaneseCandle.last` (candle_set.py:191-199). -/
def jLast (v : IndVal) : ℚ := rnd v.last.value
/-- `JapaneseCandle.close` (candle_set.py:201-214). -/
def jClose (heap : List Frame) (v : IndVal) : Option ℚ :=
  if v.closed heap then some (rnd v.last.value) else none

/-- `HeikinAshiCandle.last` (candle_set.py:260-277). -/
def haLast (v : IndVal) : ℚ :=
  rnd (fdiv (fadd (fadd (fadd v.first.value v.high.value) v.low.value) v.last.value) 4)

/-- `HeikinAshiCandle.open` (candle_set.py:226-238), recursion on the previous candles; `previous.open`
and `previous.last` dispatch on the class of the previous value.  The fuel bounds the recursion
(`heap.length` suffices, `haOpen_ok` in the proofs). -/
def haOpenFuel (heap : List Frame) : ℕ → IndVal → Except PyErr ℚ
  | 0, _ => .error .diverge
  | fuel + 1, v =>
    match v.previous heap with
    | none => .ok (rnd v.first.value)
    | some p =>
      match p.ind.kind with
      | .heikin => do
        let o ← haOpenFuel heap fuel p
        .ok (rnd (fdiv (fadd o (haLast p)) 2))
      | .japanese => .ok (rnd (fdiv (fadd (jOpen p) (jLast p)) 2))
      | _ => .error .attr

/-- `HeikinAshiCandle.open` (candle_set.py:226-238). -/
def haOpen (heap : List Frame) (v : IndVal) : Except PyErr ℚ := haOpenFuel heap (heap.length + 1) v

/-- `HeikinAshiCandle.high` (candle_set.py:240-248). -/
def haHigh (heap : List Frame) (v : IndVal) : Except PyErr ℚ := do
  let o ← haOpen heap v
  .ok (rnd (max (max o v.high.value) (haLast v)))

/-- `HeikinAshiCandle.low` (candle_set.py:250-258). -/
def haLow (heap : List Frame) (v : IndVal) : Except PyErr ℚ := do
  let o ← haOpen heap v
  .ok (rnd (min (min o v.low.value) (haLast v)))

/-- `HeikinAshiCandle.close` (candle_set.py:279-292). -/
def haClose (heap : List Frame) (v : IndVal) : Option ℚ :=
  if v.closed heap then some (haLast v) else none

/-- Open, high, low and last of a candle, from which `BaseCandle` derives the rest. -/
structure Ohlc where
  op : ℚ
  hi : ℚ
  lo : ℚ
  la : ℚ
  deriving DecidableEq

/-- Open, high, low, last of a Japanese candle. -/
def jOhlc (v : IndVal) : Ohlc := ⟨jOpen v, jHigh v, jLow v, jLast v⟩

/-- Open, high, low, last of a Heikin-Ashi candle. -/
def haOhlc (heap : List Frame) (v : IndVal) : Except PyErr Ohlc := do
  let o ← haOpen heap v
  let h ← haHigh heap v
  let l ← haLow heap v
  .ok ⟨o, h, l, haLast v⟩

/-- `BaseCandle.color` (candle_set.py:50-65); `not self.open` is true for 0.0. -/
def Ohlc.color (c : Ohlc) : Option Color :=
  if c.op = 0 ∨ c.la = 0 then none
  else if c.op < c.la then some .green
  else if c.la < c.op then some .red
  else some .black

/-- `BaseCandle.height` (candle_set.py:67-84). -/
def Ohlc.height (c : Ohlc) : ℚ := fsub c.hi c.lo

/-- `BaseCandle.body` (candle_set.py:86-106). -/
def Ohlc.body (c : Ohlc) : Option ℚ :=
  if c.op = 0 ∨ c.la = 0 then none else some (rnd |fsub c.op c.la|)

/-- `BaseCandle.head` (candle_set.py:108-127). -/
def Ohlc.head (c : Ohlc) : Option ℚ :=
  if c.op = 0 ∨ c.la = 0 then none else some (rnd (fsub c.hi (max c.op c.la)))

/-- `BaseCandle.tail` (candle_set.py:129-149). -/
def Ohlc.tail (c : Ohlc) : Option ℚ :=
  if c.op = 0 ∨ c.la = 0 then none else some (rnd (fsub (min c.op c.la) c.lo))

/-! ## Pivots (pivot.py) -/

/-- `PivotTypeClassic.pivot` (pivot.py:90-109). -/
def pivotClassic (heap : List Frame) (v : IndVal) : Option ℚ :=
  (v.previous heap).map fun p =>
    rnd (fdiv (fadd (fadd p.high.value p.low.value) p.last.value) 3)

/-- `PivotTypeOLHC.pivot` (pivot.py:221-241). -/
def pivotOLHC (heap : List Frame) (v : IndVal) : Option ℚ :=
  (v.previous heap).map fun p =>
    rnd (fdiv (fadd (fadd (fadd p.high.value p.low.value) p.last.value) v.first.value) 4)

/-- `self.pivot`, dispatched on the class. -/
def pivotOf (heap : List Frame) (v : IndVal) : Option ℚ :=
  match v.ind.kind with
  | .pivotOLHC => pivotOLHC heap v
  | _ => pivotClassic heap v

/-- The common shape of the six levels: `pivot = self.pivot; if pivot: return ...; return None`
(`if pivot` is false for 0.0), reading `self.previous` again. -/
def pivotLevel (heap : List Frame) (v : IndVal) (f : ℚ → IndVal → ℚ) : Option ℚ :=
  match pivotOf heap v with
  | none => none
  | some p => if p = 0 then none else (v.previous heap).map (f p)

/-- `support1` (pivot.py:111-122). -/
def support1 (heap : List Frame) (v : IndVal) : Option ℚ :=
  pivotLevel heap v fun p q => rnd (fsub (fmul p 2) q.high.value)
/-- `support2` (pivot.py:124-142). -/
def support2 (heap : List Frame) (v : IndVal) : Option ℚ :=
  pivotLevel heap v fun p q => rnd (fsub p (fsub q.high.value q.low.value))
/-- `support3` (pivot.py:144-159). -/
def support3 (heap : List Frame) (v : IndVal) : Option ℚ :=
  pivotLevel heap v fun p q => rnd (fsub q.low.value (fmul (fsub q.high.value p) 2))
/-- `resistance1` (pivot.py:161-172). -/
def resistance1 (heap : List Frame) (v : IndVal) : Option ℚ :=
  pivotLevel heap v fun p q => rnd (fsub (fmul p 2) q.low.value)
/-- `resistance2` (pivot.py:174-192). -/
def resistance2 (heap : List Frame) (v : IndVal) : Option ℚ :=
  pivotLevel heap v fun p q => rnd (fadd p (fsub q.high.value q.low.value))
/-- `resistance3` (pivot.py:194-209). -/
def resistance3 (heap : List Frame) (v : IndVal) : Option ℚ :=
  pivotLevel heap v fun p q => rnd (fadd q.high.value (fmul (fsub p q.low.value) 2))

/-! ## Simple moving average (simple_moving_average.py) -/

/-- `SimpleMovingAverageValue.get_value` (simple_moving_average.py:48-61). -/
def smaGet (heap : List Frame) (v : IndVal) (periods : ℤ) : Except PyErr (Option ℚ) :=
  match v.parent heap with
  | none => .error .attr
  | some f =>
    let ec := extendedCloses v f
    if (ec.length : ℤ) < periods then .ok none
    else do
      let raw ← pyDiv (fsum (sliceFrom ec (periods * -1))) periods
      .ok (some (rnd raw))

end

end Estrade
