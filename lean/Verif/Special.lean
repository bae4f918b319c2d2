import Verif.Trade

/-!
# Ticks, trades and candles with all the floats of Python: NaN, infinities, overflow

The rest of the model takes a float to be the rational number it denotes.  Here the numeric core (estrade/tick.py,
estrade/trade.py, the price tracking of estrade/graph/frame_set.py) is written again for every float.  Not
represented: the sign of zero.
-/

namespace Estrade

/-- A Python float. -/
inductive XF
  | nan
  | inf (neg : Bool)
  | fin (q : ℚ)
  deriving DecidableEq

/-- A Python value passed as `bid`/`ask`. -/
inductive XVal
  | int (n : ℤ)
  | float (x : XF)
  | other
  deriving DecidableEq

/-- `Tick` (tick.py:14-61) with any float as quotes. -/
structure XTick where
  dt : DT
  bid : XF
  ask : XF
  deriving DecidableEq

namespace XF

/-- IEEE comparison `x < y`: false as soon as one side is NaN. -/
def lt : XF → XF → Bool
  | nan, _ => false
  | _, nan => false
  | inf s, inf t => s && !t
  | inf s, fin _ => s
  | fin _, inf t => !t
  | fin a, fin b => decide (a < b)

/-- `bool(x)`: only zero is false. -/
def truthy : XF → Bool
  | fin q => decide (q ≠ 0)
  | _ => true

/-- `-x`. -/
def neg : XF → XF
  | nan => nan
  | inf s => inf (!s)
  | fin q => fin (-q)

section
variable [Arith]

/-- The float of a rational result: infinite from 2^1024 on (after rounding). -/
def ofRat (q : ℚ) : XF := if |fl q| < 2 ^ 1024 then fin (fl q) else inf (decide (q < 0))

/-- `float(n)` for an int, also the conversion of the int in `float * int`. -/
def ofInt (n : ℤ) : Except PyErr XF :=
  if |fl (n : ℚ)| < 2 ^ 1024 then .ok (fin (fl n)) else .error .overflow

/-- `x + y`. -/
def add : XF → XF → XF
  | nan, _ => nan
  | _, nan => nan
  | inf s, inf t => if s = t then inf s else nan
  | inf s, fin _ => inf s
  | fin _, inf t => inf t
  | fin a, fin b => ofRat (a + b)

/-- `x - y`. -/
def sub (x y : XF) : XF := add x (neg y)

/-- `x * y`. -/
def mul : XF → XF → XF
  | nan, _ => nan
  | _, nan => nan
  | inf s, inf t => inf (s != t)
  | inf s, fin q => if q = 0 then nan else inf (s != decide (q < 0))
  | fin q, inf s => if q = 0 then nan else inf (s != decide (q < 0))
  | fin a, fin b => ofRat (a * b)

/-- `x / 2`. -/
def half : XF → XF
  | fin q => ofRat (q / 2)
  | x => x

/-- `round(x, 2)`: CPython returns NaN and infinities unchanged.  (A finite float stays in range: `round2_in_range`.) -/
def round2 : XF → XF
  | fin q => fin (rnd q)
  | x => x

/-- `sum(l)`. -/
def sum (l : List XF) : XF := l.foldl add (fin 0)

end

end XF

section
variable [Arith]

/-- The `ask`/`bid` setters (tick.py:64-73, 85-89, 101-105): `isinstance(v, (int, float))` holds of NaN and infinities. -/
def XVal.toFloat : XVal → Except PyErr XF
  | .int n => XF.ofInt n
  | .float x => .ok x
  | .other => .error .tick

/-- `Tick.__init__` (tick.py:30-61). -/
def XTick.new (datetime : RawDT) (bid ask : XVal) : Except PyErr XTick := do
  let dt ← datetime.check
  let a ← ask.toFloat
  let b ← bid.toFloat
  if a.lt b then .error .tick else .ok ⟨dt, b, a⟩

/-- `Tick.spread` (tick.py:107-120). -/
def XTick.spread (t : XTick) : XF := (t.ask.sub t.bid).round2

/-- `Tick.value` (tick.py:122-135). -/
def XTick.value (t : XTick) : XF := (t.bid.add t.spread.half).round2

end

/-! ## Trades -/

/-- The numbers of a `TradeClose` (trade.py:396-427). -/
structure XClose where
  closeValue : XF
  qty : ℤ
  deriving DecidableEq

/-- The numbers of a `Trade` (trade.py:19-91). -/
structure XTrade where
  dir : Dir
  openQty : ℤ
  closes : List XClose
  openValue : XF
  curClose : XF
  maxRes : XF
  minRes : XF
  deriving DecidableEq

namespace XTrade
section
variable [Arith]

/-- `round(exit - entry, 2)` with the sign of the direction (trade.py:332-337, 437-441). -/
def gain (d : Dir) (openValue v : XF) : XF :=
  match d with
  | .buy => (v.sub openValue).round2
  | .sell => (openValue.sub v).round2

/-- `TradeClose.result` (trade.py:443-451). -/
def closeResult (d : Dir) (openValue : XF) (c : XClose) : Except PyErr XF := do
  let n ← XF.ofInt c.qty
  .ok ((gain d openValue c.closeValue).mul n).round2

/-- `closed_quantities` (trade.py:292-300). -/
def closedQty (t : XTrade) : ℤ := (t.closes.map XClose.qty).sum

/-- `opened_quantities` (trade.py:302-310). -/
def openedQty (t : XTrade) : ℤ := t.openQty - t.closedQty

/-- `closed` (trade.py:312-320). -/
def closed (t : XTrade) : Bool := t.openedQty = 0

/-- `opened_result_avg` (trade.py:322-337). -/
def openedResultAvg (t : XTrade) : XF :=
  if t.closed then .fin 0 else gain t.dir t.openValue t.curClose

/-- `opened_result` (trade.py:339-347). -/
def openedResult (t : XTrade) : Except PyErr XF := do
  let n ← XF.ofInt t.openedQty
  .ok (t.openedResultAvg.mul n)

/-- `closed_result` (trade.py:365-373). -/
def closedResult (t : XTrade) : Except PyErr XF := do
  let l ← t.closes.mapM (closeResult t.dir t.openValue)
  .ok (XF.sum l)

/-- `result` (trade.py:375-383). -/
def result (t : XTrade) : Except PyErr XF := do
  let a ← t.openedResult
  let b ← t.closedResult
  .ok (a.add b)

/-- `Trade.__init__` (trade.py:44-91): `current_close_value or open_value` keeps a NaN. -/
def new (d : Dir) (qty : ℤ) (openValue : XF) (cur : Option XF) : Except PyErr XTrade := do
  let c := match cur with
    | none => openValue
    | some x => if x.truthy then x else openValue
  let t : XTrade := ⟨d, qty, [], openValue, c, .fin 0, .fin 0⟩
  let r ← t.result
  .ok { t with maxRes := r, minRes := r }

/-- `Trade.open_from_tick` (trade.py:111-136) for a valid direction. -/
def openFromTick (tick : XTick) (d : Dir) (qty : ℤ) : Except PyErr XTrade :=
  match d with
  | .buy => new .buy qty tick.ask (some tick.bid)
  | .sell => new .sell qty tick.bid (some tick.ask)

/-- `_update_min_max` (trade.py:161-166). -/
def updateMinMax (t : XTrade) : Except PyErr XTrade := do
  let r ← t.result
  let t := if t.maxRes.lt r then { t with maxRes := r } else t
  .ok (if r.lt t.minRes then { t with minRes := r } else t)

/-- `update` (trade.py:168-187). -/
def update (t : XTrade) (v : XF) : Except PyErr XTrade :=
  if t.closed then .ok t else updateMinMax { t with curClose := v }

/-- `update_from_tick` (trade.py:189-201). -/
def updateFromTick (t : XTrade) (tick : XTick) : Except PyErr XTrade :=
  t.update (match t.dir with
    | .buy => tick.bid
    | .sell => tick.ask)

/-- The quantity `close` really closes (trade.py:233-240). -/
def closeQty (t : XTrade) (q : Option ℤ) : ℤ :=
  let q := match q with
    | none => t.openedQty
    | some n => if n = 0 then t.openedQty else n
  if t.openedQty < q then t.openedQty else q

/-- `close` (trade.py:210-253). -/
def close (t : XTrade) (v : XF) (q : Option ℤ) : XTrade :=
  { t with closes := t.closes ++ [⟨v, t.closeQty q⟩] }

/-- `close_from_tick` (trade.py:255-273). -/
def closeFromTick (t : XTrade) (tick : XTick) (q : Option ℤ) : Except PyErr XTrade := do
  let t ← t.updateFromTick tick
  .ok (t.close t.curClose q)

end
end XTrade

/-! ## Price tracking of a frame -/

/-- The ticks of a `Frame` (frame_set.py:16-67). -/
structure XFrame where
  nbTicks : ℕ
  first : XTick
  high : XTick
  low : XTick
  last : XTick
  deriving DecidableEq

/-- `Frame.__init__` (frame_set.py:41-67). -/
def XFrame.new (t : XTick) : XFrame := ⟨1, t, t, t, t⟩

section
variable [Arith]

/-- `Frame.on_new_tick` (frame_set.py:106-123), without the indicators. -/
def XFrame.onNewTick (f : XFrame) (t : XTick) : XFrame :=
  let f := { f with nbTicks := f.nbTicks + 1, last := t }
  if f.high.value.lt t.value then { f with high := t }
  else if t.value.lt f.low.value then { f with low := t }
  else f

end

end Estrade
