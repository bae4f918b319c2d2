import Verif.Rezone

/-!
# Frame set objects shared between epics of different timezones (epic.py:100-141, 206-208, 243-255; frame_set.py:185-187, 248-256)

`SharedSet` has frame set objects shared between epics of one timezone, `Rezone` has one epic whose timezone may be assigned.  Here
every epic has its own timezone, which may be assigned too, and frame sets are objects that any number of epics hold and feed.
A frame set gets the ticks of an epic as datetimes of the timezone of that epic, so its frames have bounds in several zones.

Simplified: zones of constant offset, as in `Rezone`; no trades and strategies.
-/

set_option autoImplicit false

namespace Estrade

/-- A `FrameSet` object: its reference, its state, its `epic`. -/
structure ZObj where
  ref : String
  set : ZFrameSet
  owner : Option ℕ
  deriving DecidableEq

/-- Epics, each with its `frame_sets` dict of references (the field `frameSets` of `Epic` is not used), and the objects. -/
structure ZDesk where
  epics : List (Epic × Dict ℕ)
  objs : List ZObj

/-- Calls. -/
inductive ZDCmd
  /-- `epics[e].on_new_tick(t)` -/
  | tick (e : ℕ) (t : Tick)
  /-- `epics[e].add_frame_set(objs[j])` -/
  | add (e j : ℕ)
  /-- `objs[j].add_indicator(ind)` -/
  | indicator (j : ℕ) (ind : Indicator)
  /-- `epics[e].timezone = name`: the zone of that name, none if the name is not in `pytz.all_timezones` -/
  | zone (e : ℕ) (n : Option ℕ)

/-- What a frame set sees of its epic (frame_set.py:186-187, 248-256): market state and date of the epic it was last added to. -/
def ZObj.ctx (o : ZObj) (z : Zone) (epics : List (Epic × Dict ℕ)) : Ctx :=
  ⟨z, (o.owner.bind (fun e => epics[e]?)).map (fun x => (x.1.marketOpen, ordOf x.1.lastTick.dt.wall))⟩

/-- `Epic.add_frame_set` (epic.py:134-141). -/
def ZDesk.add (d : ZDesk) (e j : ℕ) : ZDesk × Option PyErr :=
  match d.epics[e]?, d.objs[j]? with
  | some (ep, r), some o =>
    match r.get? o.ref with
    | some _ => (d, some .epic)
    | none => (⟨d.epics.set e (ep, r.set o.ref j), d.objs.set j { o with owner := some e }⟩, none)
  | _, _ => (d, some .attr)

section
variable [Arith]

/-- `Epic._update_frame_sets` (epic.py:206-208) over the dict of references. -/
def feedZObjs (offs : ℕ → ℤ) (z : Zone) (epics : List (Epic × Dict ℕ)) (t : Tick) : List ZObj → Dict ℕ → List ZObj × Option PyErr
  | objs, [] => (objs, none)
  | objs, (_, j) :: rest =>
    match objs[j]? with
    | none => (objs, some .attr)
    | some o =>
      match o.set.feed offs (o.ctx z epics) t with
      | (s, some err) => (objs.set j { o with set := s }, some err)
      | (s, none) => feedZObjs offs z epics t (objs.set j { o with set := s }) rest

/-- `Epic.on_new_tick` up to the strategies (epic.py:243-253). -/
def ZDesk.tick (offs : ℕ → ℤ) (d : ZDesk) (e : ℕ) (t : Tick) : ZDesk × Option PyErr :=
  match d.epics[e]? with
  | none => (d, some .attr)
  | some (ep, r) =>
    let t := { t with dt := t.dt.to ep.zone }
    if t.dt.lt ep.lastTick.dt then (d, some .epic)
    else
      let ep := { ep with lastTick := t }
      let ep := { ep with marketOpen := ep.isMarketOpen }
      let epics := d.epics.set e (ep, r)
      let o := feedZObjs offs ep.zone epics t d.objs r
      (⟨epics, o.1⟩, o.2)

/-- `FrameSet.add_indicator` (frame_set.py:189-191). -/
def ZDesk.addIndicator (d : ZDesk) (j : ℕ) (ind : Indicator) : ZDesk × Option PyErr :=
  match d.objs[j]? with
  | none => (d, some .attr)
  | some o =>
    let r := o.set.fs.addIndicator ind
    ({ d with objs := d.objs.set j { o with set := { o.set with fs := r.1 } } }, r.2)

/-- The `timezone` setter (epic.py:116-132). -/
def ZDesk.setZone (offs : ℕ → ℤ) (d : ZDesk) (e : ℕ) (n : Option ℕ) : ZDesk × Option PyErr :=
  match d.epics[e]? with
  | none => (d, some .attr)
  | some (ep, r) =>
    match ep.setZone offs n with
    | .ok ep => ({ d with epics := d.epics.set e (ep, r) }, none)
    | .error err => (d, some err)

/-- Execution of a call. -/
def ZDesk.exec (offs : ℕ → ℤ) (d : ZDesk) : ZDCmd → ZDesk × Option PyErr
  | .tick e t => d.tick offs e t
  | .add e j => d.add e j
  | .indicator j ind => d.addIndicator j ind
  | .zone e n => d.setZone offs e n

/-- The desk after some calls; the program goes on after exceptions. -/
def ZDesk.run (offs : ℕ → ℤ) (d : ZDesk) (l : List ZDCmd) : ZDesk := l.foldl (fun d x => (d.exec offs x).1) d

end
end Estrade
