import Verif.World

/-!
# Tick objects shared by epics (estrade/epic.py:243-251)

`Epic.on_new_tick` converts `tick.datetime` in place and keeps a reference to the object.  `World` copies ticks; here the
objects have an identity, so that one object fed to two epics changes under the first one.  Ticks stored in frames
(`first_tick`, ...) are read only through `value`, which the conversion does not touch; the datetime they show is not modelled.
-/

set_option autoImplicit false

namespace Estrade

/-- The tick objects of a program, and for each epic the object that is its `last_tick` (`none`: an object that is not in the
pool). -/
structure Pool where
  ticks : List Tick
  held : List (Option ℕ)

/-- Object `i` is now `x`: seen by all epics whose `last_tick` it is. -/
def World.retag (w : World) (held : List (Option ℕ)) (i : ℕ) (x : Tick) : World :=
  { w with epics := w.epics.mapIdx (fun e ep => if held[e]? = some (some i) then { ep with lastTick := x } else ep) }

/-- Commands of a program that keeps tick objects. -/
inductive ObjCmd
  /-- `epics[e].on_new_tick(ticks[i])` -/
  | feed (e i : ℕ)
  /-- any other command; a tick is then an object that the program does not use again -/
  | cmd (c : Cmd)

section
variable [Arith]

/-- `last_tick = tick` is reached (epic.py:244-251). -/
def World.accepts (w : World) (e : ℕ) (t : Tick) : Bool := match w.epics[e]? with
  | none => false
  | some ep => !(t.dt.to ep.zone).lt ep.lastTick.dt

/-- `epics[e].on_new_tick(ticks[i])` (epic.py:227-259). -/
def feedObject (env : Env) (s : World × Pool) (e i : ℕ) : (World × Pool) × Option PyErr :=
  match s.1.epics[e]?, s.2.ticks[i]? with
  | some ep, some t =>
    let x := { t with dt := t.dt.to ep.zone }
    let w := s.1.retag s.2.held i x
    let r := w.onNewTick env e x
    ((r.1, ⟨s.2.ticks.set i x, if w.accepts e x then s.2.held.set e (some i) else s.2.held⟩), r.2)
  | _, _ => (s, some .attr)

/-- Execution of a command. -/
def execObj (env : Env) (s : World × Pool) : ObjCmd → (World × Pool) × Option PyErr
  | .feed e i => feedObject env s e i
  | .cmd c =>
    let r := s.1.exec env c
    let held := match c with
      | .tick e t => if s.1.accepts e t then s.2.held.set e none else s.2.held
      | _ => s.2.held
    ((r.1, ⟨s.2.ticks, held⟩), r.2)

/-- A run. -/
def runObjs (env : Env) (s : World × Pool) (l : List ObjCmd) : World × Pool :=
  l.foldl (fun s c => (execObj env s c).1) s

/-- A pool of objects none of which has been fed. -/
def Pool.fresh (w : World) (ticks : List Tick) : Pool := ⟨ticks, w.epics.map (fun _ => none)⟩

end
end Estrade
