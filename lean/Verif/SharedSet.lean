import Verif.World

/-!
# Frame set objects shared between epics (epic.py:134-141, 206-208; frame_set.py:185-187, 248-256)

`World.addFrameSet` stores a copy, as if every epic had frame sets of its own.  Here frame sets are objects:
`add_frame_set` stores a reference and makes the epic the `epic` of the object, in place of the one it had.  Every epic that
holds the object feeds it its ticks; the market state and the date that the object reads are those of the epic it
was last added to.

Simplified: all epics have the same timezone (the periods of a frame set fed from several zones would be datetimes
of several zones).  Trades and strategies are left out: no frame depends on them (`C57_noninterference`).
-/

set_option autoImplicit false

namespace Estrade

/-- A `FrameSet` object: its reference, its state, its `epic`. -/
structure SetObj where
  ref : String
  fs : FrameSet
  owner : Option ℕ

/-- Epics, each with its `frame_sets` dict of references (the field `frameSets` of `Epic` is not used), and the objects. -/
structure Desk where
  zone : Zone
  epics : List (Epic × Dict ℕ)
  objs : List SetObj

/-- Calls: `epics[e].on_new_tick(t)`, `epics[e].add_frame_set(objs[j])`, `objs[j].add_indicator(ind)`. -/
inductive DCmd
  | tick (e : ℕ) (t : Tick)
  | add (e j : ℕ)
  | addIndicator (j : ℕ) (ind : Indicator)

/-- What a frame set sees of its epic (frame_set.py:186-187, 248-256). -/
def SetObj.ctx (o : SetObj) (z : Zone) (epics : List (Epic × Dict ℕ)) : Ctx :=
  ⟨z, (o.owner.bind (fun e => epics[e]?)).map (fun x => (x.1.marketOpen, ordOf x.1.lastTick.dt.wall))⟩

/-- `Epic.add_frame_set` (epic.py:134-141). -/
def Desk.add (d : Desk) (e j : ℕ) : Desk × Option PyErr :=
  match d.epics[e]?, d.objs[j]? with
  | some (ep, r), some o =>
    match r.get? o.ref with
    | some _ => (d, some .epic)
    | none => ({ d with
        epics := d.epics.set e (ep, r.set o.ref j)
        objs := d.objs.set j { o with owner := some e } }, none)
  | _, _ => (d, some .attr)

section
variable [Arith]

/-- `Epic._update_frame_sets` (epic.py:206-208) over the dict of references. -/
def feedObjs (z : Zone) (epics : List (Epic × Dict ℕ)) (t : Tick) : List SetObj → Dict ℕ → List SetObj × Option PyErr
  | objs, [] => (objs, none)
  | objs, (_, j) :: rest =>
    match objs[j]? with
    | none => (objs, some .attr)
    | some o =>
      match o.fs.feed (o.ctx z epics) t with
      | (fs', some err) => (objs.set j { o with fs := fs' }, some err)
      | (fs', none) => feedObjs z epics t (objs.set j { o with fs := fs' }) rest

/-- `Epic.on_new_tick` (epic.py:243-255). -/
def Desk.tick (d : Desk) (e : ℕ) (t : Tick) : Desk × Option PyErr :=
  match d.epics[e]? with
  | none => (d, some .attr)
  | some (ep, r) =>
    let t := { t with dt := t.dt.to d.zone }
    if t.dt.lt ep.lastTick.dt then (d, some .epic)
    else
      let ep := { ep with lastTick := t }
      let ep := { ep with marketOpen := ep.isMarketOpen }
      let epics := d.epics.set e (ep, r)
      let o := feedObjs d.zone epics t d.objs r
      ({ d with epics := epics, objs := o.1 }, o.2)

/-- `FrameSet.add_indicator` (frame_set.py:189-191). -/
def Desk.addIndicator (d : Desk) (j : ℕ) (ind : Indicator) : Desk × Option PyErr :=
  match d.objs[j]? with
  | none => (d, some .attr)
  | some o =>
    let r := o.fs.addIndicator ind
    ({ d with objs := d.objs.set j { o with fs := r.1 } }, r.2)

/-- Execution of a call. -/
def Desk.exec (d : Desk) : DCmd → Desk × Option PyErr
  | .tick e t => d.tick e t
  | .add e j => d.add e j
  | .addIndicator j ind => d.addIndicator j ind

/-- The desk after some calls; the program goes on after exceptions. -/
def Desk.run (d : Desk) (l : List DCmd) : Desk := l.foldl (fun d x => (d.exec x).1) d

end

end Estrade
