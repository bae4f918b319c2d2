import Verif.Settings
import Verif.Reentrant

/-!
# Callbacks that do all the main program may do (epic.py:82-87, 134-150, 214-259)

In `Reentrant.lean` callbacks issue every command, in `Settings.lean` the main program also assigns the settings of an epic.
Here callbacks do both, also while a tick of the epic is being handled: each attribute is read when Python reads it.

Simplified: as in `Reentrant.lean`, the recursion limit is a limit on the nesting of `on_new_tick`.
-/

set_option autoImplicit false

namespace Estrade

/-- User code that may issue any command and assign any setting. -/
inductive FProg
  | done
  | raise (e : PyErr)
  | act (c : SetCmd) (k : World → Option PyErr → FProg)

/-- Callback methods of this kind: strategy, callback, epic, current world. -/
abbrev FEnv := ℕ → Cb → ℕ → World → FProg

section
variable [Arith]

/-- Execution of a command, ticks by `tick`. -/
def World.fexec (tick : TickFn) (w : World) : SetCmd → World × Option PyErr
  | .cmd c => w.rexec tick c
  | .assign e s => w.assign e s

/-- Execution of user code. -/
def FProg.run (tick : TickFn) : FProg → World → World × Option PyErr
  | .done, w => (w, none)
  | .raise e, w => (w, some e)
  | .act c k, w =>
    let r := w.fexec tick c
    (k r.1 r.2).run tick r.1

/-- Call of one strategy callback. -/
def World.fcall (tick : TickFn) (env : FEnv) (w : World) (s : ℕ) (cb : Cb) (e : ℕ) : World × Option PyErr :=
  let w := { w with log := w.log ++ [.notify s e cb] }
  (env s cb e w).run tick w

/-- `if cond: strategy.cb(self)`. -/
def World.fcallIf (tick : TickFn) (env : FEnv) (cond : Bool) (w : World) (s : ℕ) (cb : Cb) (e : ℕ) :
    World × Option PyErr :=
  if cond then w.fcall tick env s cb e else (w, none)

/-- The callbacks of an active strategy (epic.py:217-225); `self.market_open` is read before each test. -/
def World.fnotifyAll (tick : TickFn) (env : FEnv) (w : World) (e s : ℕ) (before : Bool) : World × Option PyErr :=
  andThen (if before then w.fcallIf tick env (!w.marketOpen e) s .marketClose e
    else w.fcallIf tick env (w.marketOpen e) s .marketOpen e) fun w =>
  andThen (w.fcallIf tick env (w.marketOpen e) s .everyTickOpen e) fun w =>
  w.fcall tick env s .everyTick e

/-- One iteration of `Epic._execute_strategies` (epic.py:215-225). -/
def World.fexecStrategy (tick : TickFn) (env : FEnv) (w : World) (e s : ℕ) (before : Bool) : World × Option PyErr :=
  match w.epics[e]?, w.strategies[s]? with
  | some ep, some st =>
    let r := st.isActive ep.lastTick.dt
    let w := { w with strategies := w.strategies.set s r.2 }
    if r.1 then w.fnotifyAll tick env e s before else (w, none)
  | _, _ => (w, some .attr)

/-- `Epic._execute_strategies` (epic.py:214-225), over a dict that may grow. -/
def fexecStrategies (tick : TickFn) (env : FEnv) (e : ℕ) (before : Bool) (size : ℕ) :
    World → List ℕ → World × Option PyErr
  | w, [] => if w.nbStrategies e = size then (w, none) else (w, some .runtime)
  | w, s :: rest =>
    if w.nbStrategies e = size then
      andThen (w.fexecStrategy tick env e s before) fun w => fexecStrategies tick env e before size w rest
    else (w, some .runtime)

/-- `Epic.on_new_tick` (epic.py:227-259) when ticks may nest at most the given number of times.  The settings are read before
the first callback: hours, days and holidays at epic.py:253, `trade_provider` at epic.py:211. -/
def World.ftick (env : FEnv) : ℕ → World → ℕ → Tick → World × Option PyErr
  | 0, w, _, _ => (w, some .recursion)
  | d + 1, w, e, tick =>
    match w.epics[e]? with
    | none => (w, some .attr)
    | some ep =>
      let tick := { tick with dt := tick.dt.to ep.zone }
      if tick.dt.lt ep.lastTick.dt then (w, some .epic)
      else
        let r := ep.accept tick
        let w := { w with epics := w.epics.set e r.1, log := w.log ++ [.accepted e tick] }
        match r.2 with
        | some err => (w, some err)
        | none =>
          let w := w.updateOpenTrades ep.provider tick
          fexecStrategies (World.ftick env d) env e ep.marketOpen ep.strategies.length w (ep.strategies.map Prod.snd)

/-- A run of the main program. -/
def World.frun (env : FEnv) (d : ℕ) (w : World) (l : List SetCmd) : World :=
  l.foldl (fun w c => (w.fexec (World.ftick env d) c).1) w

end

/-- Callbacks of `Reentrant.lean` as callbacks of this file. -/
def RProg.free : RProg → FProg
  | .done => .done
  | .raise e => .raise e
  | .act c k => .act (.cmd c) (fun w err => (k w err).free)

/-- Callbacks of `Reentrant.lean` as callbacks of this file. -/
def REnv.free (env : REnv) : FEnv := fun s cb e w => (env s cb e w).free

end Estrade
