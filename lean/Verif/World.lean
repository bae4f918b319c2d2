import Verif.Frame
import Verif.Trade

/-!
# Epics, strategies, trade providers (estrade/epic.py, strategy.py, trade_provider.py)

A `World` holds the objects of one program run; objects refer to each other by index.  User code
(strategy callbacks) is an arbitrary program over the public operations; provider requests run in threads whose
execution is an explicit step (`Op.thread`) that user code and the environment may take at any point.
-/

namespace Estrade

/-- `Epic` (epic.py:45-95).  `openTime`, `closeTime`: microseconds of the day; `holidays`: day
ordinals; `provider`, `strategies`: object indices. -/
structure Epic where
  ref : String
  zone : Zone
  openTime : ℤ
  closeTime : ℤ
  tradeDays : List ℤ
  holidays : List ℤ
  provider : ℕ
  lastTick : Tick
  marketOpen : Bool
  frameSets : Dict FrameSet
  strategies : Dict ℕ

/-- `Epic.__init__` (epic.py:45-95): `trade_days or [0, 1, 2, 3, 4]`. -/
def Epic.new (ref : String) (zone : Zone) (openTime closeTime : ℤ) (tradeDays holidays : List ℤ)
    (provider : ℕ) : Epic :=
  ⟨ref, zone, openTime, closeTime, if tradeDays = [] then [0, 1, 2, 3, 4] else tradeDays, holidays,
    provider, Tick.epoch, false, [], []⟩

/-- `BaseStrategy` (strategy.py:33-44); `epics` and `trades` hold indices. -/
structure Strategy where
  ref : String
  epics : Dict ℕ
  pausedUntil : Option DT
  stopped : Bool
  trades : List ℕ

/-- `BaseStrategy.__init__` (strategy.py:33-44). -/
def Strategy.new (ref : String) : Strategy := ⟨ref, [], none, false, []⟩

/-- Class of a provider: `TradeProviderBacktests` (trade_provider.py:144-213), or a subclass of
`BaseTradeProvider` (trade_provider.py:16-141) with its own request methods. -/
inductive ProviderKind
  | backtests | custom
  deriving DecidableEq

/-- What a request thread works on: a trade, or a close of a trade (index in `closes`). -/
inductive Target
  | opening (t : ℕ)
  | closing (t : ℕ) (i : ℕ)
  deriving DecidableEq

/-- A `threading.Thread` started by the provider (trade_provider.py:77-83, 111-117). -/
structure Thread where
  target : Target
  alive : Bool
  deriving DecidableEq

/-- `BaseTradeProvider` (trade_provider.py:30-42). -/
structure Provider where
  kind : ProviderKind
  trades : List ℕ
  threads : List Thread

/-- `BaseTradeProvider.__init__` (trade_provider.py:30-42). -/
def Provider.new (k : ProviderKind) : Provider := ⟨k, [], []⟩

/-- The strategy callbacks (strategy.py:191-225). -/
inductive Cb
  | marketClose | marketOpen | everyTickOpen | everyTick
  deriving DecidableEq

/-- History entries (ghost state, read by no modelled function). -/
inductive Event
  | accepted (e : ℕ) (tick : Tick)
  | notify (s : ℕ) (e : ℕ) (cb : Cb)
  deriving DecidableEq

/-- All objects of a run. `trades` contains every `Trade` ever created. -/
structure World where
  epics : List Epic
  strategies : List Strategy
  providers : List Provider
  trades : List Trade
  log : List Event

section
variable [Arith]

/-! ## Epic: market hours -/

/-- `Epic._in_market_hours` (epic.py:152-177). -/
def Epic.inMarketHours (e : Epic) (t : ℤ) : Bool :=
  if t < e.openTime then false else if e.closeTime < t then false else true

/-- `Epic.is_market_open` (epic.py:179-204). -/
def Epic.isMarketOpen (e : Epic) : Bool :=
  if !e.inMarketHours (timeOf e.lastTick.dt.wall) then false
  else if weekdayOf e.lastTick.dt.wall ∉ e.tradeDays then false
  else if ordOf e.lastTick.dt.wall ∈ e.holidays then false
  else true

/-- `Epic.get_frame` (epic.py:287-307): KeyError for an unknown frame set, `none` when out of range. -/
def Epic.getFrame (e : Epic) (ref : String) (offset : ℤ) : Except PyErr (Option Frame) :=
  match e.frameSets.get? ref with
  | none => .error .key
  | some fs => .ok (fs.getItem ((offset + 1) * -1))

/-- `Epic.get_indicator_value` (epic.py:309-330). -/
def Epic.getIndicatorValue (e : Epic) (ref ind : String) (offset : ℤ) :
    Except PyErr (Option IndVal) := do
  let f ← e.getFrame ref offset
  .ok (f.bind (fun f => f.get ind))

/-! ## Strategy -/

/-- `BaseStrategy.is_active` with `_is_paused` (strategy.py:46-68): result and new state. -/
def Strategy.isActive (s : Strategy) (dt : DT) : Bool × Strategy :=
  if s.stopped then (false, s)
  else match s.pausedUntil with
    | none => (true, s)
    | some p => if dt.lt p then (false, s) else (true, { s with pausedUntil := none })

/-- `BaseStrategy.get_trades` (strategy.py:111-133) (a generator, here run to its end). -/
def getTrades (trades : List Trade) (epics : Option (List ℕ)) (openOnly : Bool)
    (onlyAfter : Option DT) : List Trade :=
  go trades.reverse
where
  go : List Trade → List Trade
    | [] => []
    | t :: rest =>
      if (match epics with | none => true | some es => decide (t.epic ∈ es))
          && (!openOnly || !t.closed) then
        match onlyAfter with
        | some d => if t.dt.lt d then [] else t :: go rest
        | none => t :: go rest
      else go rest

/-- The argument of `result`/`profit_factor`: nothing, a list, or a generator (always truthy). -/
inductive TradesArg
  | none
  | list (l : List Trade)
  | gen (l : List Trade)

/-- `if not trades: trades = self.trades` (strategy.py:148-149, 170-171). -/
def TradesArg.resolve (own : List Trade) : TradesArg → List Trade
  | .none => own
  | .list l => if l = [] then own else l
  | .gen l => l

/-- `BaseStrategy.result` (strategy.py:135-155). -/
def strategyResult (own : List Trade) (a : TradesArg) : ℚ :=
  rnd (((a.resolve own).map Trade.result).foldl fadd 0)

/-- The accumulation loop of `profit_factor` (strategy.py:173-180). -/
def pfSums (l : List Trade) : ℚ × ℚ :=
  l.foldl (fun s t => if 0 ≤ t.result then (fadd s.1 t.result, s.2) else (s.1, fadd s.2 t.result))
    (0, 0)

/-- `BaseStrategy.profit_factor` (strategy.py:157-186); the divisor is never 0. -/
def profitFactor (own : List Trade) (a : TradesArg) : Except PyErr ℚ :=
  let s := pfSums (a.resolve own)
  if s.2 = 0 then .ok s.1
  else do
    let n := if |s.2| < 1 then 1 else s.2
    let r ← pyDiv s.1 n
    .ok |rnd r|

/-! ## Provider -/

/-- `BaseTradeProvider.is_alive` (trade_provider.py:119-130). -/
def Provider.isAlive (p : Provider) : Bool := p.threads.any Thread.alive

/-- `BaseTradeProvider.opened_trades` (trade_provider.py:132-141), as ids. -/
def World.openedTrades (w : World) (p : Provider) : List ℕ :=
  p.trades.reverse.filter (fun i => match w.trades[i]? with
    | none => false
    | some t => !t.closed)

/-- Replace trade `i`. -/
def World.setTrade (w : World) (i : ℕ) (t : Trade) : World := { w with trades := w.trades.set i t }

/-- Apply a function to provider `p`. -/
def World.modProvider (w : World) (p : ℕ) (f : Provider → Provider) : World :=
  { w with providers := w.providers.modify p f }

/-- Apply a function to strategy `s`. -/
def World.modStrategy (w : World) (s : ℕ) (f : Strategy → Strategy) : World :=
  { w with strategies := w.strategies.modify s f }

/-- Apply a function to epic `e`. -/
def World.modEpic (w : World) (e : ℕ) (f : Epic → Epic) : World :=
  { w with epics := w.epics.modify e f }

/-- A new thread appended to `threads` and started (trade_provider.py:77-83, 111-117). -/
def Provider.spawn (p : Provider) (t : Target) : Provider :=
  { p with threads := p.threads ++ [⟨t, true⟩] }

/-- `trade.close_from_epic(quantity)` (trade.py:275-287) followed by `provider.close_trade`
(trade_provider.py:104-117) on provider `p`. -/
def World.closeOn (w : World) (p : ℕ) (i : ℕ) (q : Option ℤ) : Except PyErr World :=
  match w.trades[i]? with
  | none => .error .attr
  | some t =>
    match w.epics[t.epic]? with
    | none => .error .attr
    | some e =>
      .ok ((w.setTrade i (t.closeFromTick e.lastTick q)).modProvider p
        (fun pr => pr.spawn (.closing i t.closes.length)))

/-- `opposite_direction` (trade_provider.py:160-164). -/
def Dir.opposite : Dir → Dir
  | .sell => .buy
  | .buy => .sell

/-- The netting loop of `TradeProviderBacktests.open_trade` (trade_provider.py:166-186) over the ids
`l` of the trades that were open when it started; `new` is the trade being opened. -/
def netLoop (p : ℕ) : World → Trade → List ℕ → Except PyErr (World × Trade)
  | w, new, [] => .ok (w, new)
  | w, new, i :: rest =>
    match w.trades[i]? with
    | none => .error .attr
    | some t =>
      if t.dir = new.dir.opposite then
        if t.strategy ≠ new.strategy then netLoop p w new rest
        else do
          let q := min t.openedQty new.openQty
          let w' ← w.closeOn p i (some q)
          netLoop p w' { new with openQty := new.openQty - q } rest
      else netLoop p w new rest

/-- `BaseTradeProvider.open_trade` (trade_provider.py:63-83) of the trade with id `i`. -/
def World.register (w : World) (p : ℕ) (i : ℕ) (strategy : Option ℕ) : World :=
  let w := w.modProvider p (fun pr => { pr with trades := pr.trades ++ [i] })
  let w := match strategy with
    | none => w
    | some s => w.modStrategy s (fun st => { st with trades := st.trades ++ [i] })
  w.modProvider p (fun pr => pr.spawn (.opening i))

/-- `provider.open_trade(trade)`, dispatched on the class (trade_provider.py:63-83, 147-193).  The new
trade object gets the next id of the heap, whether it is registered or not. -/
def World.providerOpen (w : World) (p : ℕ) (new : Trade) : Except PyErr World :=
  match w.providers[p]? with
  | none => .error .attr
  | some pr =>
    match pr.kind with
    | .custom =>
      let i := w.trades.length
      .ok (({ w with trades := w.trades ++ [new] }).register p i new.strategy)
    | .backtests => do
      let r ← netLoop p w new (w.openedTrades pr)
      let i := r.1.trades.length
      let w' := { r.1 with trades := r.1.trades ++ [r.2] }
      if r.2.openQty ≤ 0 then .ok w' else .ok (w'.register p i new.strategy)

/-! ## Operations available to user code -/

/-- Public operations of the API. -/
inductive Op
  /-- `epic.open_trade(strategy=.., direction=.., quantity=..)` / `strategy.open_trade` (epic.py:261-271,
  strategy.py:73-82); direction `none` is an invalid one. -/
  | openTrade (e : ℕ) (s : Option ℕ) (d : Option Dir) (q : ℤ)
  /-- `epic.close_trade(trade, quantity=..)` (epic.py:273-285). -/
  | closeTrade (e : ℕ) (t : ℕ) (q : Option ℤ)
  /-- `strategy.close_opened_trades(quantity=..)` (strategy.py:98-106). -/
  | closeOpened (s : ℕ) (q : Option ℤ)
  /-- `trade.update(v)` (trade.py:168-187). -/
  | update (t : ℕ) (v : ℚ)
  /-- `trade.close(v, dt, quantity)` (trade.py:210-253) without telling the provider. -/
  | close (t : ℕ) (v : ℚ) (dt : DT) (q : Option ℤ)
  /-- assignment to `strategy.paused_until`. -/
  | pause (s : ℕ) (dt : Option DT)
  /-- assignment to `strategy.stopped`. -/
  | stop (s : ℕ) (b : Bool)
  /-- the scheduler runs thread `i` of provider `p` to its end; `st` is the status a custom request method
  assigns, if any (none: it assigns nothing or raises). -/
  | thread (p : ℕ) (i : ℕ) (st : Option Status)

/-- A status assignment on the object a thread works on. -/
def World.setStatus (w : World) (tg : Target) (st : Status) : World :=
  match tg with
  | .opening i => { w with trades := w.trades.modify i (fun t => { t with status := st }) }
  | .closing i k =>
    let f : Trade → Trade := fun t =>
      { t with closes := t.closes.modify k (fun c => { c with status := st }) }
    { w with trades := w.trades.modify i f }

/-- One request thread running: `open_trade_request` / `close_trade_request`
(trade_provider.py:44-61, 85-102, 195-213). A finished thread does nothing. -/
def World.runThread (w : World) (p i : ℕ) (st : Option Status) : World × Option PyErr :=
  match w.providers[p]? with
  | none => (w, some .attr)
  | some pr =>
    match pr.threads[i]? with
    | none => (w, some .attr)
    | some th =>
      if th.alive then
        let w' := w.modProvider p (fun pr =>
          { pr with threads := pr.threads.modify i (fun th => { th with alive := false }) })
        match pr.kind with
        | .backtests => (w'.setStatus th.target .confirmed, none)
        | .custom => match st with
          | none => (w', none)
          | some st => (w'.setStatus th.target st, none)
      else (w, none)

/-- `Epic.close_trade` (epic.py:273-285). -/
def World.closeTrade (w : World) (e t : ℕ) (q : Option ℤ) : Except PyErr World :=
  match w.epics[e]? with
  | none => .error .attr
  | some ep => w.closeOn ep.provider t q

/-- The loop of `close_opened_trades` (strategy.py:105-106) over `reversed(self.trades)`; openness is
tested when the generator reaches the trade. -/
def closeOpenedLoop (q : Option ℤ) : World → List ℕ → Except PyErr World
  | w, [] => .ok w
  | w, i :: rest =>
    match w.trades[i]? with
    | none => .error .attr
    | some t =>
      if t.closed then closeOpenedLoop q w rest
      else do
        let w' ← w.closeTrade t.epic i q
        closeOpenedLoop q w' rest

/-- Keep the old state when an operation raised (every error case of the operations below is raised before
any change, for worlds whose indices are valid). -/
def orKeep (w : World) : Except PyErr World → World × Option PyErr
  | .ok w' => (w', none)
  | .error e => (w, some e)

/-- Execution of an operation: new world and exception raised to the caller. -/
def World.step (w : World) : Op → World × Option PyErr
  | .openTrade e s d q =>
    match w.epics[e]? with
    | none => (w, some .attr)
    | some ep =>
      if s.all (fun k => decide (k < w.strategies.length)) then
        orKeep w (do
          let t ← Trade.openFromTick ep.lastTick e d q s
          w.providerOpen ep.provider t)
      else (w, some .attr)
  | .closeTrade e t q => orKeep w (w.closeTrade e t q)
  | .closeOpened s q =>
    match w.strategies[s]? with
    | none => (w, some .attr)
    | some st => orKeep w (closeOpenedLoop q w st.trades.reverse)
  | .update t v => ({ w with trades := w.trades.modify t (fun x => x.update v) }, none)
  | .close t v dt q => ({ w with trades := w.trades.modify t (fun x => x.close v dt q) }, none)
  | .pause s d => (w.modStrategy s (fun st => { st with pausedUntil := d }), none)
  | .stop s b => (w.modStrategy s (fun st => { st with stopped := b }), none)
  | .thread p i st => w.runThread p i st

/-- User code: a program that performs operations and may inspect the world and the exceptions raised
in between; it ends normally or raises. -/
inductive Prog
  | done
  | raise (e : PyErr)
  | act (o : Op) (k : World → Option PyErr → Prog)

/-- Execution of user code. -/
def Prog.run : Prog → World → World × Option PyErr
  | .done, w => (w, none)
  | .raise e, w => (w, some e)
  | .act o k, w =>
    let r := w.step o
    (k r.1 r.2).run r.1

/-- The user's callback methods: strategy, callback, epic, current world. -/
abbrev Env := ℕ → Cb → ℕ → World → Prog

/-- Call of one strategy callback. -/
def World.call (env : Env) (w : World) (s : ℕ) (cb : Cb) (e : ℕ) : World × Option PyErr :=
  let w := { w with log := w.log ++ [.notify s e cb] }
  (env s cb e w).run w

/-- `;` with exception propagation. -/
def andThen (r : World × Option PyErr) (f : World → World × Option PyErr) : World × Option PyErr :=
  match r with
  | (w, none) => f w
  | (w, some e) => (w, some e)

/-- `if cond: strategy.cb(self)`. -/
def World.callIf (env : Env) (cond : Bool) (w : World) (s : ℕ) (cb : Cb) (e : ℕ) :
    World × Option PyErr :=
  if cond then w.call env s cb e else (w, none)

/-- `self.market_open`. -/
def World.marketOpen (w : World) (e : ℕ) : Bool := match w.epics[e]? with
  | none => false
  | some ep => ep.marketOpen

/-- The body of the loop of `Epic._execute_strategies` for an active strategy (epic.py:217-225). -/
def World.notifyAll (env : Env) (w : World) (e s : ℕ) (before : Bool) : World × Option PyErr :=
  andThen (w.callIf env (before && !w.marketOpen e) s .marketClose e) fun w =>
  andThen (w.callIf env (!before && w.marketOpen e) s .marketOpen e) fun w =>
  andThen (w.callIf env (w.marketOpen e) s .everyTickOpen e) fun w =>
  w.call env s .everyTick e

/-- One iteration of `Epic._execute_strategies` (epic.py:215-225). -/
def World.execStrategy (env : Env) (w : World) (e s : ℕ) (before : Bool) (dt : DT) :
    World × Option PyErr :=
  match w.strategies[s]? with
  | none => (w, some .attr)
  | some st =>
    let r := st.isActive dt
    let w := { w with strategies := w.strategies.set s r.2 }
    if r.1 then w.notifyAll env e s before else (w, none)

/-- `Epic._execute_strategies` (epic.py:214-225). -/
def execStrategies (env : Env) (e : ℕ) (before : Bool) (dt : DT) :
    World → List ℕ → World × Option PyErr
  | w, [] => (w, none)
  | w, s :: rest =>
    andThen (w.execStrategy env e s before dt) fun w => execStrategies env e before dt w rest

/-- `Epic._update_frame_sets` (epic.py:206-208): frame sets updated until the first exception; the one that raises
is left in the state of `FrameSet.feed`. -/
def updateFrameSets (c : Ctx) (tick : Tick) : Dict FrameSet → Dict FrameSet × Option PyErr
  | [] => ([], none)
  | (k, fs) :: rest =>
    match fs.feed c tick with
    | (fs', some err) => ((k, fs') :: rest, some err)
    | (fs', none) =>
      let r := updateFrameSets c tick rest
      ((k, fs') :: r.1, r.2)

/-- `Epic._update_open_trades` (epic.py:210-212) for provider `p`. -/
def World.updateOpenTrades (w : World) (p : ℕ) (tick : Tick) : World :=
  match w.providers[p]? with
  | none => w
  | some pr => (w.openedTrades pr).foldl
      (fun w i => { w with trades := w.trades.modify i (fun t => t.updateFromTick tick) }) w

/-- The part of `Epic.on_new_tick` that concerns the epic itself (epic.py:250-255), for a tick already
converted to the epic's zone: last tick, market state, frame sets. -/
def Epic.accept (ep : Epic) (tick : Tick) : Epic × Option PyErr :=
  let ep := { ep with lastTick := tick }
  let ep := { ep with marketOpen := ep.isMarketOpen }
  let c : Ctx := ⟨ep.zone, some (ep.marketOpen, ordOf ep.lastTick.dt.wall)⟩
  let r := updateFrameSets c tick ep.frameSets
  ({ ep with frameSets := r.1 }, r.2)

/-- `Epic.on_new_tick` (epic.py:227-259). -/
def World.onNewTick (env : Env) (w : World) (e : ℕ) (tick : Tick) : World × Option PyErr :=
  match w.epics[e]? with
  | none => (w, some .attr)
  | some ep =>
    let tick := { tick with dt := tick.dt.to ep.zone }
    if tick.dt.lt ep.lastTick.dt then (w, some .epic)
    else
      let r := ep.accept tick
      let w := { w with epics := w.epics.set e r.1, log := w.log ++ [.accepted e tick] }
      match r.2 with
      | some err => (w, some err)
      | none =>
        let w := w.updateOpenTrades ep.provider tick
        execStrategies env e ep.marketOpen tick.dt w (ep.strategies.map Prod.snd)

/-! ## Top-level commands -/

/-- `Epic.add_frame_set` (epic.py:134-141); a `FrameSet` object is truthy (it has no `__len__`). -/
def Epic.addFrameSet (e : Epic) (ref : String) (fs : FrameSet) : Except PyErr Epic :=
  match e.frameSets.get? ref with
  | some _ => .error .epic
  | none => .ok { e with frameSets := e.frameSets.set ref fs }

/-- `Epic.add_strategy` (epic.py:143-150). -/
def World.addStrategy (w : World) (e s : ℕ) : World × Option PyErr :=
  match w.epics[e]?, w.strategies[s]? with
  | some ep, some st =>
    match ep.strategies.get? st.ref with
    | some _ => (w, some .epic)
    | none =>
      ((w.modEpic e (fun ep => { ep with strategies := ep.strategies.set st.ref s })).modStrategy s
        (fun st => { st with epics := st.epics.set ep.ref e }), none)
  | _, _ => (w, some .attr)

/-- `epic.add_frame_set` in the world. -/
def World.addFrameSet (w : World) (e : ℕ) (ref : String) (fs : FrameSet) : World × Option PyErr :=
  match w.epics[e]? with
  | none => (w, some .attr)
  | some ep =>
    match ep.addFrameSet ref fs with
    | .error err => (w, some err)
    | .ok ep' => ({ w with epics := w.epics.set e ep' }, none)

/-- `epic.frame_sets[ref].add_indicator(ind)` in the world. -/
def World.addIndicator (w : World) (e : ℕ) (ref : String) (ind : Indicator) :
    World × Option PyErr :=
  match w.epics[e]? with
  | none => (w, some .attr)
  | some ep =>
    match ep.frameSets.get? ref with
    | none => (w, some .key)
    | some fs =>
      let r := fs.addIndicator ind
      ({ w with epics := w.epics.set e { ep with frameSets := ep.frameSets.set ref r.1 } }, r.2)

/-- What the main program can do: feed ticks, register objects, use the API. -/
inductive Cmd
  | tick (e : ℕ) (t : Tick)
  | op (o : Op)
  | addFrameSet (e : ℕ) (ref : String) (fs : FrameSet)
  | addStrategy (e s : ℕ)
  | addIndicator (e : ℕ) (ref : String) (ind : Indicator)

/-- Execution of a command. -/
def World.exec (env : Env) (w : World) : Cmd → World × Option PyErr
  | .tick e t => w.onNewTick env e t
  | .op o => w.step o
  | .addFrameSet e ref fs => w.addFrameSet e ref fs
  | .addStrategy e s => w.addStrategy e s
  | .addIndicator e ref ind => w.addIndicator e ref ind

/-- A run: the main program goes on after exceptions (it may catch them; one that stops is a shorter
run). -/
def World.runCmds (env : Env) (w : World) (l : List Cmd) : World :=
  l.foldl (fun w c => (w.exec env c).1) w

/-- A program start: freshly constructed objects. -/
structure World.Init (w : World) : Prop where
  epics : ∀ e ∈ w.epics, ∃ ref z o c td h p, p < w.providers.length ∧ e = Epic.new ref z o c td h p
  strategies : ∀ s ∈ w.strategies, ∃ ref, s = Strategy.new ref
  providers : ∀ p ∈ w.providers, ∃ k, p = Provider.new k
  trades : w.trades = []
  log : w.log = []

/-- Worlds that some run reaches. -/
def Reachable (env : Env) (w : World) : Prop :=
  ∃ w₀ : World, w₀.Init ∧ ∃ l, w = w₀.runCmds env l

end

end Estrade
