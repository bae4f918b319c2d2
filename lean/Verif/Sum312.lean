import Verif.Lots

/-!
# The builtin `sum` of Python 3.12 and later

pyproject.toml:41 asks for Python `^3.6`, which includes the versions whose `sum` of floats is compensated (CPython 3.12, Python/bltinmodule.c, `builtin_sum_impl`:
the algorithm of Neumaier).  The functions of the package that call `sum` are given here with it: trade.py:300, 359, 373 and simple_moving_average.py:60.
-/

set_option autoImplicit false

namespace Estrade

section
variable [Arith]

/-- One turn of the loop over floats: `t = s + x; c += (s - t) + x if fabs(s) >= fabs(x) else (x - t) + s; s = t`. -/
def neuStep (p : ℚ × ℚ) (x : ℚ) : ℚ × ℚ :=
  let t := fadd p.1 x
  (t, fadd p.2 (if |x| ≤ |p.1| then fadd (fsub p.1 t) x else fadd (fsub x t) p.1))

/-- `sum` of floats: the first one is added to the int 0, the loop starts there, and the compensation is added at the end if it is not 0. -/
def sum312 : List ℚ → ℚ
  | [] => 0
  | x :: l =>
    let p := l.foldl neuStep (fadd 0 x, 0)
    if p.2 = 0 then p.1 else fadd p.1 p.2

/-- `closed_result` (trade.py:365-373). -/
def Trade.closedResult312 (t : Trade) : ℚ := sum312 (t.closes.map (closeResult t.dir t.openValue))

/-- `opened_quantities` (trade.py:292-310) of a quantity that is a float. -/
def Lot.openedQty312 (t : Lot) : ℚ := fsub t.openQty (sum312 (t.closes.map LotClose.qty))

/-- The value of a simple moving average (simple_moving_average.py:48-61) over the closes `l`, one for each period. -/
def sma312 (l : List ℚ) : ℚ := rnd (fdiv (sum312 l) l.length)

/-- The same in earlier versions. -/
def smaOld (l : List ℚ) : ℚ := rnd (fdiv (fsum l) l.length)

end
end Estrade
