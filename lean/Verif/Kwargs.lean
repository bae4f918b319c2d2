import Verif.World

/-!
# Keyword arguments of openings and closes (epic.py:261-285, strategy.py:73-106, trade.py:44-56, 111-158, 210-287)

`open_trade` and `close_trade` hand their keyword arguments on to other functions, down to `Trade(...)` and `TradeClose(...)`.  In `World`
the arguments are always suitable; here a caller may pass any of them, leave some out, and invent names.

Simplified: `strategy` is None or an existing strategy, a quantity is an int or no number at all, `status` is a member of the enum;
`ref` and `meta` are accepted and not looked at.
-/

set_option autoImplicit false

namespace Estrade

/-- What a call can raise: TypeError (arguments that do not fit, operands that do not fit), or one of the others. -/
inductive CallErr
  | type
  | py (e : PyErr)
  deriving DecidableEq

/-- Keyword arguments given to an opening; `others` are the further names that were given. -/
structure OpenKw where
  /-- `some none`: something that is not a direction -/
  direction : Option (Option Dir) := none
  /-- `some none`: something that is not a number -/
  quantity : Option (Option ℤ) := none
  strategy : Option (Option ℕ) := none
  openValue : Option ℚ := none
  curClose : Option ℚ := none
  openDt : Option RawDT := none
  status : Option Status := none
  others : List String := []

/-- A `quantity` given to a close: nothing, None or another false object; an int; a true object that is not a number. -/
inductive QtyArg
  | falsy
  | int (n : ℤ)
  | other
  deriving DecidableEq

/-- Keyword arguments given to a close. -/
structure CloseKw where
  quantity : QtyArg := .falsy
  status : Option Status := none
  others : List String := []

/-- Names without a parameter: `Trade.__init__` and `TradeClose.__init__` know `ref` and `meta` besides those modelled on their own
(trade.py:44-56, 399-408). -/
def unknownNames (l : List String) : Bool := l.any (fun n => !["ref", "meta"].contains n)

/-- The quantity as `Trade.close` sees it. -/
def QtyArg.get : QtyArg → Option ℤ
  | .int n => some n
  | _ => none

section
variable [Arith]

/-- `Trade(epic=epic, **kwargs)` (trade.py:44-91, 132-135) with direction `d`: TypeError for an unknown name or a missing argument, and at
`self.result` (trade.py:80) if the quantity is not a number. -/
def OpenKw.init (kw : OpenKw) (epic : ℕ) (d : Dir) : Except CallErr Trade :=
  if unknownNames kw.others then .error .type
  else match kw.quantity, kw.openValue, kw.openDt with
    | some (some n), some v, some rd =>
      match rd.check with
      | .error err => .error (.py err)
      | .ok dt => .ok (Trade.new d n v dt epic kw.curClose (kw.strategy.getD none) (kw.status.getD .created))
    | _, _, _ => .error .type

/-- `Trade.open_from_tick(tick=tick, epic=epic, **kwargs)` (trade.py:111-136). -/
def OpenKw.openFromTick (kw : OpenKw) (tick : Tick) (epic : ℕ) : Except CallErr Trade :=
  if kw.others.contains "tick" || kw.others.contains "epic" then .error .type
  else match kw.direction with
    | none => .error (.py .key)
    | some none => .error (.py .trade)
    | some (some .buy) =>
      { kw with openValue := some tick.ask, curClose := some tick.bid, openDt := some (.aware tick.dt) }.init epic .buy
    | some (some .sell) =>
      { kw with openValue := some tick.bid, curClose := some tick.ask, openDt := some (.aware tick.dt) }.init epic .sell

/-- `epic.open_trade(**kwargs)` (epic.py:261-271), through `Trade.open_from_epic` (trade.py:138-157). -/
def World.openKw (w : World) (e : ℕ) (kw : OpenKw) : World × Option CallErr :=
  match w.epics[e]? with
  | none => (w, some (.py .attr))
  | some ep =>
    if kw.others.contains "self" || kw.others.contains "epic" then (w, some .type)
    else match kw.openFromTick ep.lastTick e with
      | .error err => (w, some err)
      | .ok t =>
        match w.providerOpen ep.provider t with
        | .error err => (w, some (.py err))
        | .ok w' => (w', none)

/-- `strategy.open_trade(epic, **kwargs)` (strategy.py:73-82). -/
def World.strategyOpenKw (w : World) (s e : ℕ) (kw : OpenKw) : World × Option CallErr :=
  if kw.others.contains "self" || kw.others.contains "epic" || kw.strategy.isSome then (w, some .type)
  else w.openKw e { kw with strategy := some (some s) }

/-- `trade.close(close_value=v, datetime=dt, **kwargs)` (trade.py:210-253). -/
def Trade.closeKw (t : Trade) (v : ℚ) (dt : DT) (kw : CloseKw) : Except CallErr Trade :=
  if kw.others.contains "self" || kw.others.contains "close_value" || kw.others.contains "datetime" then .error .type
  else if kw.quantity = .other then .error .type
  else if unknownNames kw.others then .error .type
  else .ok { t with closes := t.closes ++ [⟨v, t.closeQty kw.quantity.get, dt, kw.status.getD .created⟩] }

/-- `trade.close_from_tick(tick, **kwargs)` (trade.py:255-273): the trade afterwards, and the exception. -/
def Trade.closeFromTickKw (t : Trade) (tick : Tick) (kw : CloseKw) : Trade × Option CallErr :=
  if kw.others.contains "self" || kw.others.contains "tick" then (t, some .type)
  else
    let t := t.updateFromTick tick
    match t.closeKw t.curClose tick.dt kw with
    | .error err => (t, some err)
    | .ok t' => (t', none)

/-- `epic.close_trade(trade, **kwargs)` (epic.py:273-285), through `trade.close_from_epic` (trade.py:275-287). -/
def World.closeKw (w : World) (e i : ℕ) (kw : CloseKw) : World × Option CallErr :=
  match w.epics[e]?, w.trades[i]? with
  | some ep, some t =>
    if kw.others.contains "self" || kw.others.contains "trade" then (w, some .type)
    else match w.epics[t.epic]? with
      | none => (w, some (.py .attr))
      | some ept =>
        let r := t.closeFromTickKw ept.lastTick kw
        let w := w.setTrade i r.1
        match r.2 with
        | some err => (w, some err)
        | none => (w.modProvider ep.provider (fun pr => pr.spawn (.closing i t.closes.length)), none)
  | _, _ => (w, some (.py .attr))

/-- The loop of `close_opened_trades` (strategy.py:105-106) with `strategy.close_trade` (strategy.py:84-96). -/
def closeOpenedKwLoop (kw : CloseKw) : World → List ℕ → World × Option CallErr
  | w, [] => (w, none)
  | w, i :: rest =>
    match w.trades[i]? with
    | none => (w, some (.py .attr))
    | some t =>
      if t.closed then closeOpenedKwLoop kw w rest
      else
        let r := w.closeKw t.epic i kw
        match r.2 with
        | some err => (r.1, some err)
        | none => closeOpenedKwLoop kw r.1 rest

/-- `strategy.close_opened_trades(**kwargs)` (strategy.py:98-106). -/
def World.closeOpenedKw (w : World) (s : ℕ) (kw : CloseKw) : World × Option CallErr :=
  match w.strategies[s]? with
  | none => (w, some (.py .attr))
  | some st => if kw.others.contains "self" then (w, some .type) else closeOpenedKwLoop kw w st.trades.reverse

end

/-! ## User code that makes such calls -/

/-- What user code may do. -/
inductive KwOp
  /-- everything of `World` -/
  | op (o : Op)
  /-- `epic.open_trade(**kwargs)` -/
  | openTrade (e : ℕ) (kw : OpenKw)
  /-- `strategy.open_trade(epic, **kwargs)` -/
  | strategyOpen (s e : ℕ) (kw : OpenKw)
  /-- `epic.close_trade(trade, **kwargs)` -/
  | closeTrade (e i : ℕ) (kw : CloseKw)
  /-- `strategy.close_opened_trades(**kwargs)` -/
  | closeOpened (s : ℕ) (kw : CloseKw)

/-- User code. -/
inductive KwProg
  | done
  | raise (e : CallErr)
  | act (o : KwOp) (k : World → Option CallErr → KwProg)

section
variable [Arith]

/-- Execution of one call. -/
def World.kwStep (w : World) : KwOp → World × Option CallErr
  | .op o => ((w.step o).1, (w.step o).2.map CallErr.py)
  | .openTrade e kw => w.openKw e kw
  | .strategyOpen s e kw => w.strategyOpenKw s e kw
  | .closeTrade e i kw => w.closeKw e i kw
  | .closeOpened s kw => w.closeOpenedKw s kw

/-- Execution of user code. -/
def KwProg.run : KwProg → World → World × Option CallErr
  | .done, w => (w, none)
  | .raise e, w => (w, some e)
  | .act o k, w =>
    let r := w.kwStep o
    (k r.1 r.2).run r.1

end

end Estrade
