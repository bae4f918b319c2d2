import Verif.World

/-!
# Callbacks that feed ticks and register objects (epic.py:134-150, 214-259)

In `World.lean` callbacks use the trading API only.  Here they may do everything the main program can do: call
`epic.on_new_tick` again (of the same or another epic), add strategies, frame sets and indicators.  Ticks nest, so every
`self.last_tick`, `self.market_open` and `self.strategies` of epic.py is read when Python reads it.

Simplified: Python's recursion limit counts frames of the interpreter; here it is a limit on the nesting of
`on_new_tick`, and the call beyond it raises before doing anything.
-/

set_option autoImplicit false

namespace Estrade

/-- User code that may issue any command. -/
inductive RProg
  | done
  | raise (e : PyErr)
  | act (c : Cmd) (k : World → Option PyErr → RProg)

/-- Callback methods that may issue any command: strategy, callback, epic, current world. -/
abbrev REnv := ℕ → Cb → ℕ → World → RProg

section
variable [Arith]

/-- `epic.on_new_tick`, as callbacks see it. -/
abbrev TickFn := World → ℕ → Tick → World × Option PyErr

/-- Execution of a command, ticks by `tick`. -/
def World.rexec (tick : TickFn) (w : World) : Cmd → World × Option PyErr
  | .tick e t => tick w e t
  | .op o => w.step o
  | .addFrameSet e ref fs => w.addFrameSet e ref fs
  | .addStrategy e s => w.addStrategy e s
  | .addIndicator e ref ind => w.addIndicator e ref ind

/-- Execution of user code. -/
def RProg.run (tick : TickFn) : RProg → World → World × Option PyErr
  | .done, w => (w, none)
  | .raise e, w => (w, some e)
  | .act c k, w =>
    let r := w.rexec tick c
    (k r.1 r.2).run tick r.1

/-- Call of one strategy callback. -/
def World.rcall (tick : TickFn) (env : REnv) (w : World) (s : ℕ) (cb : Cb) (e : ℕ) : World × Option PyErr :=
  let w := { w with log := w.log ++ [.notify s e cb] }
  (env s cb e w).run tick w

/-- `if cond: strategy.cb(self)`. -/
def World.rcallIf (tick : TickFn) (env : REnv) (cond : Bool) (w : World) (s : ℕ) (cb : Cb) (e : ℕ) :
    World × Option PyErr :=
  if cond then w.rcall tick env s cb e else (w, none)

/-- The callbacks of an active strategy (epic.py:217-225); the market state is read again before each test. -/
def World.rnotifyAll (tick : TickFn) (env : REnv) (w : World) (e s : ℕ) (before : Bool) : World × Option PyErr :=
  andThen (if before then w.rcallIf tick env (!w.marketOpen e) s .marketClose e
    else w.rcallIf tick env (w.marketOpen e) s .marketOpen e) fun w =>
  andThen (w.rcallIf tick env (w.marketOpen e) s .everyTickOpen e) fun w =>
  w.rcall tick env s .everyTick e

/-- One iteration of `Epic._execute_strategies` (epic.py:215-225): `is_active` gets the datetime of the last tick the
epic has at that moment. -/
def World.rexecStrategy (tick : TickFn) (env : REnv) (w : World) (e s : ℕ) (before : Bool) : World × Option PyErr :=
  match w.epics[e]?, w.strategies[s]? with
  | some ep, some st =>
    let r := st.isActive ep.lastTick.dt
    let w := { w with strategies := w.strategies.set s r.2 }
    if r.1 then w.rnotifyAll tick env e s before else (w, none)
  | _, _ => (w, some .attr)

/-- `len(self.strategies)`. -/
def World.nbStrategies (w : World) (e : ℕ) : ℕ := match w.epics[e]? with
  | none => 0
  | some ep => ep.strategies.length

/-- `Epic._execute_strategies` (epic.py:214-225): iterating a dict that has grown raises RuntimeError, also after the
last item. -/
def rexecStrategies (tick : TickFn) (env : REnv) (e : ℕ) (before : Bool) (size : ℕ) :
    World → List ℕ → World × Option PyErr
  | w, [] => if w.nbStrategies e = size then (w, none) else (w, some .runtime)
  | w, s :: rest =>
    if w.nbStrategies e = size then
      andThen (w.rexecStrategy tick env e s before) fun w => rexecStrategies tick env e before size w rest
    else (w, some .runtime)

/-- `Epic.on_new_tick` (epic.py:227-259) when ticks may nest at most the given number of times. -/
def World.rtick (env : REnv) : ℕ → World → ℕ → Tick → World × Option PyErr
  | 0, w, _, _ => (w, some .recursion)
  | d + 1, w, e, tick =>
    match w.epics[e]? with
    | none => (w, some .attr)
    | some ep =>
      let tick := { tick with dt := tick.dt.to ep.zone }
      if tick.dt.lt ep.lastTick.dt then (w, some .epic)
      else
        let r := ep.accept tick
        let w := { w with epics := w.epics.set e r.1, log := w.log ++ [.accepted e tick] }
        match r.2 with
        | some err => (w, some err)
        | none =>
          let w := w.updateOpenTrades ep.provider tick
          rexecStrategies (World.rtick env d) env e ep.marketOpen ep.strategies.length w (ep.strategies.map Prod.snd)

/-- A run of the main program, as `World.runCmds`. -/
def World.rrun (env : REnv) (d : ℕ) (w : World) (l : List Cmd) : World :=
  l.foldl (fun w c => (w.rexec (World.rtick env d) c).1) w

/-- Worlds reached by some run with callbacks of this kind. -/
def RReachable (env : REnv) (d : ℕ) (w : World) : Prop := ∃ w₀ : World, w₀.Init ∧ ∃ l, w = w₀.rrun env d l

end

/-- Callbacks of `World.lean` as callbacks of this file. -/
def Prog.lift : Prog → RProg
  | .done => .done
  | .raise e => .raise e
  | .act o k => .act (.op o) (fun w err => (k w err).lift)

/-- Callbacks of `World.lean` as callbacks of this file. -/
def Env.lift (env : Env) : REnv := fun s cb e w => (env s cb e w).lift

end Estrade
