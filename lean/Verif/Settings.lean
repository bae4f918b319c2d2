import Verif.World

/-!
# Settings of an epic assigned while it runs

`open_time`, `close_time`, `trade_days`, `holidays` and `trade_provider` are public attributes of `Epic` (epic.py:82-87, read
at 163-173, 198-202, 211, 269, 285).  In `World` they keep the value given to the constructor; here the main program may assign
them between its other commands. `timezone` is in Rezone.lean.
-/

set_option autoImplicit false

namespace Estrade

/-- An assignment to an attribute of an epic (epic.py:82-87). -/
inductive Setting
  | openTime (t : ℤ)
  | closeTime (t : ℤ)
  | tradeDays (l : List ℤ)
  | holidays (l : List ℤ)
  | provider (p : ℕ)

/-- The assignment.  `trade_days` is stored as it is: the default of `trade_days or [0, 1, 2, 3, 4]` (epic.py:85) belongs to the
constructor. -/
def Epic.assign (ep : Epic) : Setting → Epic
  | .openTime t => { ep with openTime := t }
  | .closeTime t => { ep with closeTime := t }
  | .tradeDays l => { ep with tradeDays := l }
  | .holidays l => { ep with holidays := l }
  | .provider p => { ep with provider := p }

/-- Commands of a program that changes settings. -/
inductive SetCmd
  | cmd (c : Cmd)
  /-- `epics[e].<attribute> = value` -/
  | assign (e : ℕ) (s : Setting)

section
variable [Arith]

/-- An assignment of an existing object to an attribute of an existing epic. -/
def World.assign (w : World) (e : ℕ) (s : Setting) : World × Option PyErr :=
  match w.epics[e]? with
  | none => (w, some .attr)
  | some ep => match s with
    | .provider p =>
      if p < w.providers.length then ({ w with epics := w.epics.set e (ep.assign (.provider p)) }, none) else (w, some .attr)
    | s => ({ w with epics := w.epics.set e (ep.assign s) }, none)

/-- Execution of a command. -/
def World.execSet (env : Env) (w : World) : SetCmd → World × Option PyErr
  | .cmd c => w.exec env c
  | .assign e s => w.assign e s

/-- A run. -/
def World.runSets (env : Env) (w : World) (l : List SetCmd) : World := l.foldl (fun w c => (w.execSet env c).1) w

end
end Estrade
