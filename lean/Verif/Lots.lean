import Verif.Trade

/-!
# Trades of fractional quantities (estrade/trade.py, estrade/trade_provider.py)

The annotations say `int`, but no line checks it: `Trade(quantity=0.5, ...)` and `close(quantity=0.1)` work.  The quantities are then floats, and so are their sums and
differences.  Minima and maxima, datetimes and statuses are left out here.
-/

set_option autoImplicit false

namespace Estrade

/-- `TradeClose` (trade.py:396-427) of a quantity that is a float. -/
structure LotClose where
  value : ℚ
  qty : ℚ
deriving DecidableEq

/-- `Trade` (trade.py:19-91) of a quantity that is a float. -/
structure Lot where
  dir : Dir
  openQty : ℚ
  closes : List LotClose
  openValue : ℚ
  curClose : ℚ
deriving DecidableEq

/-- What a program does with a trade: `update` (trade.py:168-187) and `close` (trade.py:210-253), with the quantity if one is given. -/
inductive LotCmd
  | update (v : ℚ)
  | close (v : ℚ) (q : Option ℚ)

section
variable [Arith]

namespace Lot

/-- `Trade.__init__` (trade.py:44-91) without `current_close_value`. -/
def new (d : Dir) (q v : ℚ) : Lot := ⟨d, q, [], v, v⟩

/-- `closed_quantities` (trade.py:292-300). -/
def closedQty (t : Lot) : ℚ := fsum (t.closes.map LotClose.qty)

/-- `opened_quantities` (trade.py:302-310). -/
def openedQty (t : Lot) : ℚ := fsub t.openQty t.closedQty

/-- `closed` (trade.py:312-320). -/
def closed (t : Lot) : Bool := t.openedQty = 0

/-- The average of `opened_result_avg` and `TradeClose.result_avg` (trade.py:333-337, 436-441). -/
def avg (t : Lot) (v : ℚ) : ℚ :=
  match t.dir with
  | .buy => rnd (fsub v t.openValue)
  | .sell => rnd (fsub t.openValue v)

/-- `opened_result` with `opened_result_avg` (trade.py:322-347). -/
def openedResult (t : Lot) : ℚ := fmul (if t.closed then 0 else t.avg t.curClose) t.openedQty

/-- `TradeClose.result` (trade.py:443-451). -/
def closeResult (t : Lot) (c : LotClose) : ℚ := rnd (fmul (t.avg c.value) c.qty)

/-- `closed_result` (trade.py:365-373). -/
def closedResult (t : Lot) : ℚ := fsum (t.closes.map t.closeResult)

/-- `result` (trade.py:375-383). -/
def result (t : Lot) : ℚ := fadd t.openedResult t.closedResult

/-- The quantity `close` takes (trade.py:233-240). -/
def closeQty (t : Lot) (q : Option ℚ) : ℚ :=
  let q := match q with
    | none => t.openedQty
    | some n => if n = 0 then t.openedQty else n
  if t.openedQty < q then t.openedQty else q

/-- `close` (trade.py:210-253). -/
def close (t : Lot) (v : ℚ) (q : Option ℚ) : Lot := { t with closes := t.closes ++ [⟨v, t.closeQty q⟩] }

/-- `update` (trade.py:168-187). -/
def update (t : Lot) (v : ℚ) : Lot := if t.closed then t else { t with curClose := v }

/-- One command. -/
def exec (t : Lot) : LotCmd → Lot
  | .update v => t.update v
  | .close v q => t.close v q

/-- A program. -/
def run (t : Lot) (l : List LotCmd) : Lot := l.foldl exec t

/-- `close_from_epic` (trade.py:255-288) when the side of the last tick the trade is closed at is `v`. -/
def closeAt (t : Lot) (v : ℚ) (q : Option ℚ) : Lot := (t.update v).close (t.update v).curClose q

/-- The loop of `TradeProviderBacktests.open_trade` (trade_provider.py:167-188) over the open trades of the same strategy and of the opposite direction, last opened first:
the trades afterwards, and what remains of the quantity of the new one. -/
def net (v : ℚ) : List Lot → ℚ → List Lot × ℚ
  | [], q => ([], q)
  | t :: ts, q =>
    let n := min t.openedQty q
    let r := net v ts (fsub q n)
    (t.closeAt v (some n) :: r.1, r.2)

/-- Whether `TradeProviderBacktests.open_trade` opens the new trade (trade_provider.py:190-195). -/
def opens (v : ℚ) (ts : List Lot) (q : ℚ) : Bool := 0 < (net v ts q).2

end Lot
end
end Estrade
