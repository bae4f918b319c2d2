import Verif.Free

/-!
# Trade objects built by the caller (trade.py:44-91, trade_provider.py:63-83, 104-117, 147-193)

`Trade(...)` and `provider.open_trade(trade)`, `provider.close_trade(trade_close)` are public: user code may build a trade with any
values, hand it to any provider, now or later, and more than once.  In `World` trades only come from `epic.open_trade`; here user
code, the callbacks included, may do both, on top of everything in `Free.lean`.

Simplified: `direction` is one of the two directions, `epic` and `strategy` are existing objects, and the object handed to
`close_trade` is a close of an existing trade.
-/

set_option autoImplicit false

namespace Estrade

/-- The arguments of `Trade(...)` (trade.py:44-56). -/
structure Ticket where
  dir : Dir
  qty : ℤ
  openValue : ℚ
  dt : DT
  epic : ℕ
  cur : Option ℚ
  strategy : Option ℕ
  status : Status

/-- What user code may do. -/
inductive AnyCmd
  /-- everything of `Free.lean` -/
  | set (c : SetCmd)
  /-- `trade = Trade(...)` -/
  | build (k : Ticket)
  /-- `providers[p].open_trade(trades[t])` -/
  | submit (p t : ℕ)
  /-- `providers[p].open_trade(Trade(...))` -/
  | place (p : ℕ) (k : Ticket)
  /-- `providers[p].close_trade(trades[t].closes[i])` -/
  | request (p t i : ℕ)

/-- User code. -/
inductive AProg
  | done
  | raise (e : PyErr)
  | act (c : AnyCmd) (k : World → Option PyErr → AProg)

/-- Callback methods: strategy, callback, epic, current world. -/
abbrev AEnv := ℕ → Cb → ℕ → World → AProg

/-- The effect of a callback method on the world, and the exception it raises. -/
abbrev Hook := ℕ → Cb → ℕ → World → World × Option PyErr

section
variable [Arith]

/-- `Trade.__init__` (trade.py:44-91) with these arguments. -/
def Ticket.trade (k : Ticket) : Trade := Trade.new k.dir k.qty k.openValue k.dt k.epic k.cur k.strategy k.status

/-- `trade = Trade(...)`: the object exists, nobody lists it. -/
def World.build (w : World) (k : Ticket) : World × Option PyErr :=
  if k.epic < w.epics.length ∧ k.strategy.all (fun s => decide (s < w.strategies.length)) then
    ({ w with trades := w.trades ++ [k.trade] }, none)
  else (w, some .attr)

/-- The netting loop of `TradeProviderBacktests.open_trade` (trade_provider.py:166-186) for the object `i`, over the ids of
the trades that were open when it started. -/
def submitLoop (p i : ℕ) : World → List ℕ → Except PyErr World
  | w, [] => .ok w
  | w, j :: rest =>
    match w.trades[i]?, w.trades[j]? with
    | some new, some t =>
      if t.dir = new.dir.opposite then
        if t.strategy ≠ new.strategy then submitLoop p i w rest
        else do
          let q := min t.openedQty new.openQty
          let w' ← w.closeOn p j (some q)
          submitLoop p i { w' with trades := w'.trades.modify i (fun t => { t with openQty := t.openQty - q }) } rest
      else submitLoop p i w rest
    | _, _ => .error .attr

/-- `provider.open_trade(trade)`, dispatched on the class (trade_provider.py:63-83, 147-193), of a trade object that exists
already, listed or not. -/
def World.submit (w : World) (p i : ℕ) : World × Option PyErr :=
  match w.providers[p]?, w.trades[i]? with
  | some pr, some t =>
    match pr.kind with
    | .custom => (w.register p i t.strategy, none)
    | .backtests =>
      match submitLoop p i w (w.openedTrades pr) with
      | .error err => (w, some err)
      | .ok w' =>
        match w'.trades[i]? with
        | none => (w', some .attr)
        | some t' => if t'.openQty ≤ 0 then (w', none) else (w'.register p i t'.strategy, none)
  | _, _ => (w, some .attr)

/-- `provider.close_trade(trade_close)` (trade_provider.py:104-117). -/
def World.request (w : World) (p t i : ℕ) : World × Option PyErr :=
  if p < w.providers.length ∧ ((w.trades[t]?).bind (fun x => x.closes[i]?)).isSome then
    (w.modProvider p (fun pr => pr.spawn (.closing t i)), none)
  else (w, some .attr)

/-- `provider.open_trade(Trade(...))`. -/
def World.place (w : World) (p : ℕ) (k : Ticket) : World × Option PyErr :=
  if p < w.providers.length then andThen (w.build k) fun u => u.submit p w.trades.length else (w, some .attr)

/-- Execution of a command, ticks by `tick`. -/
def World.aexec (tick : TickFn) (w : World) : AnyCmd → World × Option PyErr
  | .set c => w.fexec tick c
  | .build k => w.build k
  | .submit p t => w.submit p t
  | .place p k => w.place p k
  | .request p t i => w.request p t i

/-- Execution of user code. -/
def AProg.run (tick : TickFn) : AProg → World → World × Option PyErr
  | .done, w => (w, none)
  | .raise e, w => (w, some e)
  | .act c k, w =>
    let r := w.aexec tick c
    (k r.1 r.2).run tick r.1

/-- The effect of the callbacks, ticks by `tick`. -/
def AEnv.hook (env : AEnv) (tick : TickFn) : Hook := fun s cb e w => (env s cb e w).run tick w

/-! ## `Epic.on_new_tick` with any callbacks -/

/-- Call of one strategy callback. -/
def World.hcall (hook : Hook) (w : World) (s : ℕ) (cb : Cb) (e : ℕ) : World × Option PyErr :=
  hook s cb e { w with log := w.log ++ [.notify s e cb] }

/-- `if cond: strategy.cb(self)`. -/
def World.hcallIf (hook : Hook) (cond : Bool) (w : World) (s : ℕ) (cb : Cb) (e : ℕ) : World × Option PyErr :=
  if cond then w.hcall hook s cb e else (w, none)

/-- The callbacks of an active strategy (epic.py:217-225). -/
def World.hnotifyAll (hook : Hook) (w : World) (e s : ℕ) (before : Bool) : World × Option PyErr :=
  andThen (if before then w.hcallIf hook (!w.marketOpen e) s .marketClose e
    else w.hcallIf hook (w.marketOpen e) s .marketOpen e) fun w =>
  andThen (w.hcallIf hook (w.marketOpen e) s .everyTickOpen e) fun w =>
  w.hcall hook s .everyTick e

/-- One iteration of `Epic._execute_strategies` (epic.py:215-225). -/
def World.hexecStrategy (hook : Hook) (w : World) (e s : ℕ) (before : Bool) : World × Option PyErr :=
  match w.epics[e]?, w.strategies[s]? with
  | some ep, some st =>
    let r := st.isActive ep.lastTick.dt
    let w := { w with strategies := w.strategies.set s r.2 }
    if r.1 then w.hnotifyAll hook e s before else (w, none)
  | _, _ => (w, some .attr)

/-- `Epic._execute_strategies` (epic.py:214-225), over a dict that may grow. -/
def hexecStrategies (hook : Hook) (e : ℕ) (before : Bool) (size : ℕ) : World → List ℕ → World × Option PyErr
  | w, [] => if w.nbStrategies e = size then (w, none) else (w, some .runtime)
  | w, s :: rest =>
    if w.nbStrategies e = size then
      andThen (w.hexecStrategy hook e s before) fun w => hexecStrategies hook e before size w rest
    else (w, some .runtime)

/-- `Epic.on_new_tick` (epic.py:227-259) when ticks may nest at most the given number of times. -/
def World.htick (hook : TickFn → Hook) : ℕ → World → ℕ → Tick → World × Option PyErr
  | 0, w, _, _ => (w, some .recursion)
  | d + 1, w, e, tick =>
    match w.epics[e]? with
    | none => (w, some .attr)
    | some ep =>
      let tick := { tick with dt := tick.dt.to ep.zone }
      if tick.dt.lt ep.lastTick.dt then (w, some .epic)
      else
        let r := ep.accept tick
        let w := { w with epics := w.epics.set e r.1, log := w.log ++ [.accepted e tick] }
        match r.2 with
        | some err => (w, some err)
        | none =>
          let w := w.updateOpenTrades ep.provider tick
          hexecStrategies (hook (World.htick hook d)) e ep.marketOpen ep.strategies.length w
            (ep.strategies.map Prod.snd)

/-- A run of the main program. -/
def World.arun (env : AEnv) (d : ℕ) (w : World) (l : List AnyCmd) : World :=
  l.foldl (fun w c => (w.aexec (World.htick env.hook d) c).1) w

end

/-- Callbacks of `Free.lean` as callbacks of this file. -/
def FProg.any : FProg → AProg
  | .done => .done
  | .raise e => .raise e
  | .act c k => .act (.set c) (fun w err => (k w err).any)

/-- Callbacks of `Free.lean` as callbacks of this file. -/
def FEnv.any (env : FEnv) : AEnv := fun s cb e w => (env s cb e w).any

end Estrade
