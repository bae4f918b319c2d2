import Verif.Tick

/-!
# Trades (estrade/trade.py)
-/

namespace Estrade

/-- `estrade.enums.TradeDirection` (enums/__init__.py:4-15). -/
inductive Dir
  | buy | sell
  deriving DecidableEq, Repr

/-- `estrade.enums.TransactionStatus` (enums/__init__.py:18-37). -/
inductive Status
  | created | required | pending | confirmed | closed | refused
  deriving DecidableEq, Repr

/-- `TradeClose` (trade.py:396-427). -/
structure TradeClose where
  closeValue : ℚ
  qty : ℤ
  dt : DT
  status : Status
  deriving DecidableEq

/-- `Trade` (trade.py:19-91).  `epic` and `strategy` are object references (indices in the world);
`ref` and `meta` are not modelled. -/
structure Trade where
  epic : ℕ
  strategy : Option ℕ
  dir : Dir
  openQty : ℤ
  closes : List TradeClose
  openValue : ℚ
  curClose : ℚ
  maxRes : ℚ
  minRes : ℚ
  dt : DT
  status : Status
  deriving DecidableEq

section
variable [Arith]

/-- `TradeClose.result_avg` (trade.py:429-441). -/
def closeResultAvg (d : Dir) (openValue : ℚ) (c : TradeClose) : ℚ :=
  match d with
  | .buy => rnd (fsub c.closeValue openValue)
  | .sell => rnd (fsub openValue c.closeValue)

/-- `TradeClose.result` (trade.py:443-451). -/
def closeResult (d : Dir) (openValue : ℚ) (c : TradeClose) : ℚ :=
  rnd (fmul (closeResultAvg d openValue c) c.qty)

namespace Trade

/-- `closed_quantities` (trade.py:292-300). -/
def closedQty (t : Trade) : ℤ := (t.closes.map TradeClose.qty).sum

/-- `opened_quantities` (trade.py:302-310). -/
def openedQty (t : Trade) : ℤ := t.openQty - t.closedQty

/-- `closed` (trade.py:312-320). -/
def closed (t : Trade) : Bool := t.openedQty = 0

/-- `opened_result_avg` (trade.py:322-337). -/
def openedResultAvg (t : Trade) : ℚ :=
  if t.closed then 0
  else match t.dir with
    | .buy => rnd (fsub t.curClose t.openValue)
    | .sell => rnd (fsub t.openValue t.curClose)

/-- `opened_result` (trade.py:339-347). -/
def openedResult (t : Trade) : ℚ := fmul t.openedResultAvg t.openedQty

/-- `closed_result` (trade.py:365-373). -/
def closedResult (t : Trade) : ℚ := fsum (t.closes.map (closeResult t.dir t.openValue))

/-- `closed_result_avg` (trade.py:349-363). -/
def closedResultAvg (t : Trade) : Except PyErr ℚ :=
  if t.closes = [] then .ok (rnd 0)
  else do
    let r ← pyDiv t.closedResult t.closedQty
    .ok (rnd r)

/-- `result` (trade.py:375-383). -/
def result (t : Trade) : ℚ := fadd t.openedResult t.closedResult

/-- `result_avg` (trade.py:385-393). -/
def resultAvg (t : Trade) : Except PyErr ℚ := do
  let r ← pyDiv t.result t.openQty
  .ok (rnd r)

/-- `Trade.__init__` (trade.py:44-91): `current_close_value or open_value` takes the open value when
the closing value is `None` or 0. -/
def new (d : Dir) (qty : ℤ) (openValue : ℚ) (dt : DT) (epic : ℕ) (cur : Option ℚ)
    (strategy : Option ℕ) (status : Status := .created) : Trade :=
  let c := match cur with
    | none => openValue
    | some x => if x = 0 then openValue else x
  let t : Trade := ⟨epic, strategy, d, qty, [], openValue, c, 0, 0, dt, status⟩
  { t with maxRes := t.result, minRes := t.result }

/-- `Trade.open_from_tick` (trade.py:111-136); `none` is an invalid direction. -/
def openFromTick (tick : Tick) (epic : ℕ) (d : Option Dir) (qty : ℤ) (strategy : Option ℕ) :
    Except PyErr Trade :=
  match d with
  | some .buy => .ok (Trade.new .buy qty tick.ask tick.dt epic (some tick.bid) strategy)
  | some .sell => .ok (Trade.new .sell qty tick.bid tick.dt epic (some tick.ask) strategy)
  | none => .error .trade

/-- `_update_min_max` (trade.py:161-166). -/
def updateMinMax (t : Trade) : Trade :=
  let t := if t.maxRes < t.result then { t with maxRes := t.result } else t
  if t.result < t.minRes then { t with minRes := t.result } else t

/-- `update` (trade.py:168-187). -/
def update (t : Trade) (v : ℚ) : Trade :=
  if t.closed then t else updateMinMax { t with curClose := v }

/-- `update_from_tick` (trade.py:189-201). -/
def updateFromTick (t : Trade) (tick : Tick) : Trade :=
  t.update (match t.dir with
    | .buy => tick.bid
    | .sell => tick.ask)

/-- The quantity `close` really closes (trade.py:233-240): `None` and 0 mean all the rest, larger
requests are clamped. -/
def closeQty (t : Trade) (q : Option ℤ) : ℤ :=
  let q := match q with
    | none => t.openedQty
    | some n => if n = 0 then t.openedQty else n
  if t.openedQty < q then t.openedQty else q

/-- `close` (trade.py:210-253). -/
def close (t : Trade) (v : ℚ) (dt : DT) (q : Option ℤ) : Trade :=
  { t with closes := t.closes ++ [⟨v, t.closeQty q, dt, .created⟩] }

/-- `close_from_tick` (trade.py:255-273). -/
def closeFromTick (t : Trade) (tick : Tick) (q : Option ℤ) : Trade :=
  let t := t.updateFromTick tick
  t.close t.curClose tick.dt q

end Trade

end

end Estrade
