import Verif.World

/-!
# Revaluation of trades by programs (estrade/trade.py:203-205)
-/

namespace Estrade
section
variable [Arith]

/-- `trade.update_from_epic()` (trade.py:203-205) on the trade with id `i`. -/
def World.updateFromEpic (w : World) (i : ℕ) : World × Option PyErr :=
  match w.trades[i]? with
  | none => (w, some .attr)
  | some t =>
    match w.epics[t.epic]? with
    | none => (w, some .attr)
    | some ep => ({ w with trades := w.trades.set i (t.updateFromTick ep.lastTick) }, none)

/-- `for trade in trades: trade.update_from_epic()`. -/
def World.requote : World → List ℕ → World × Option PyErr
  | w, [] => (w, none)
  | w, i :: rest => andThen (w.updateFromEpic i) fun w => w.requote rest

end
end Estrade
