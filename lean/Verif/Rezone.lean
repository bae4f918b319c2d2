import Verif.World

/-!
# The timezone of an epic assigned while it runs (estrade/epic.py:100-132)

In `World` the zone of an epic is the one given to the constructor, and the bounds of a frame are wall clocks of that zone.  After
an assignment to `epic.timezone` the frames made before have bounds in the old zone and new ticks are in the new one, so bounds
are kept here as instants together with the zone of the datetimes.

Simplifications: one epic with one frame set (frame sets do not read each other), no strategies or trades; zones of constant
offset (`offs n` is the offset of the zone with number `n`), so that every wall clock exists and `resolve_imaginary` has nothing to
do.
-/

set_option autoImplicit false

namespace Estrade

/-- A zone of constant offset, from a table of offsets. -/
def tableZone (offs : ℕ → ℤ) (n : ℕ) : Zone := ⟨n, fun _ => offs n, fun w => w⟩

/-- The datetime of an instant in zone `n`. -/
def atZone (offs : ℕ → ℤ) (n : ℕ) (u : ℤ) : DT := ⟨u, u + offs n, n⟩

/-- A frame set whose frames have bounds in different zones: `periodStart` and `periodEnd` of the frames of `fs` are instants,
`zones[i]` is the zone of both datetimes of the frame with id `i`. -/
structure ZFrameSet where
  fs : FrameSet
  zones : List ℕ
  deriving DecidableEq

/-- `FrameSet.__init__` (frame_set.py:148-176). -/
def ZFrameSet.new (u : Unit') (q : ℤ) (maxFrames : ℤ) : Except PyErr ZFrameSet := do
  let fs ← FrameSet.new u q maxFrames
  .ok ⟨fs, []⟩

/-- `get_frame_start` (timeframe.py:52-63, 84-162) of a datetime: `replace`, `floor` and `shift` keep the tzinfo. -/
def zoneStart (offs : ℕ → ℤ) (u : Unit') (q : ℤ) (d : DT) : Except PyErr DT := do
  let s ← frameStart u q d.wall
  .ok (atZone offs d.tz (s - offs d.tz))

/-- `get_frame_end` (timeframe.py:65-78) of a datetime. -/
def zoneEnd (offs : ℕ → ℤ) (u : Unit') (q : ℤ) (d : DT) : DT :=
  atZone offs d.tz (frameEnd (tableZone offs d.tz) u q d.wall - offs d.tz)

/-- `frame.period_end` of the frame with id `i` as a datetime. -/
def ZFrameSet.periodEnd (offs : ℕ → ℤ) (z : ZFrameSet) (i : ℕ) (f : Frame) : Option DT :=
  match f.periodEnd, z.zones[i]? with
  | some e, some n => some (atZone offs n e)
  | _, _ => none

section
variable [Arith]

/-- `FrameSet.create_new_frame` (frame_set.py:202-219): both bounds have the zone of `ps`. -/
def ZFrameSet.create (z : ZFrameSet) (c : Ctx) (tick : Tick) (ps : DT) (pe : Option DT) : ZFrameSet × Option PyErr :=
  let r := z.fs.feedCreate c tick ps.utc (pe.map DT.utc)
  (⟨r.1, if z.fs.heap.length < r.1.heap.length then z.zones ++ [ps.tz] else z.zones⟩, r.2)

/-- The gap filling loop (frame_set.py:224-230): the frames it makes go on from `self.current.period_end`, in its zone. -/
def ZFrameSet.fill (offs : ℕ → ℤ) (c : Ctx) (ps : DT) : ℕ → ZFrameSet → ZFrameSet × Option PyErr
  | fuel, z =>
    match z.fs.current with
    | none => (z, none)
    | some (i, f) =>
      match z.periodEnd offs i f with
      | none => (z, some .attr)
      | some pe =>
        if pe.lt ps then
          match fuel with
          | 0 => (z, some .diverge)
          | fuel + 1 =>
            match z.create c f.last pe (some (zoneEnd offs z.fs.unit z.fs.qty pe)) with
            | (z', none) => ZFrameSet.fill offs c ps fuel z'
            | (z', some e) => (z', some e)
        else (z, none)

/-- `FrameSet._create_new_frame_timed` (frame_set.py:221-232). -/
def ZFrameSet.createTimed (offs : ℕ → ℤ) (z : ZFrameSet) (c : Ctx) (tick : Tick) : ZFrameSet × Option PyErr :=
  match zoneStart offs z.fs.unit z.fs.qty tick.dt with
  | .error e => (z, some e)
  | .ok ps =>
    match ZFrameSet.fill offs c ps (fillFuel z.fs ps.utc) z with
    | (z', none) => z'.create c tick ps (some (zoneEnd offs z.fs.unit z.fs.qty ps))
    | (z', some e) => (z', some e)

/-- `FrameSet.is_frame_over_timed` (frame_set.py:243-246): a comparison of datetimes. -/
def ZFrameSet.overTimed (offs : ℕ → ℤ) (z : ZFrameSet) (tick : Tick) : Except PyErr Bool :=
  match z.fs.current with
  | none => .ok true
  | some (i, f) => match z.periodEnd offs i f with
    | none => .error .attr
    | some pe => .ok (!tick.dt.lt pe)

/-- `FrameSet.add_tick_to_last` (frame_set.py:258-260). -/
def ZFrameSet.addToLast (z : ZFrameSet) (c : Ctx) (tick : Tick) : ZFrameSet × Option PyErr :=
  let r := z.fs.feedLast c tick
  ({ z with fs := r.1 }, r.2)

/-- `FrameSet.on_new_tick` (frame_set.py:262-279, 167-171). -/
def ZFrameSet.feed (offs : ℕ → ℤ) (z : ZFrameSet) (c : Ctx) (tick : Tick) : ZFrameSet × Option PyErr :=
  if z.fs.unit = .tick then
    if z.fs.overTick c tick then z.create c tick tick.dt none
    else z.addToLast c tick
  else
    match z.overTimed offs tick with
    | .error e => (z, some e)
    | .ok over => if over then z.createTimed offs c tick else z.addToLast c tick

/-- An epic and its frame set; the frame sets of `ep` itself are not used. -/
structure ZState where
  ep : Epic
  set : ZFrameSet

/-- What the main program does. -/
inductive ZCmd
  /-- `epic.on_new_tick(tick)` -/
  | tick (t : Tick)
  /-- `epic.timezone = name`: the zone of that name, none if the name is not in `pytz.all_timezones` -/
  | zone (n : Option ℕ)
  /-- `frame_set.add_indicator(indicator)` -/
  | indicator (ind : Indicator)

/-- The `timezone` setter (epic.py:116-132). -/
def Epic.setZone (offs : ℕ → ℤ) (ep : Epic) : Option ℕ → Except PyErr Epic
  | none => .error .epic
  | some n => .ok { ep with zone := tableZone offs n }

/-- One command: `Epic.on_new_tick` up to the strategies (epic.py:243-253), the setter (epic.py:116-132),
`FrameSet.add_indicator` (frame_set.py:189-191). -/
def ZState.exec (offs : ℕ → ℤ) (s : ZState) : ZCmd → ZState × Option PyErr
  | .tick t =>
    let t := { t with dt := t.dt.to s.ep.zone }
    if t.dt.lt s.ep.lastTick.dt then (s, some .epic)
    else
      let ep := { s.ep with lastTick := t }
      let ep := { ep with marketOpen := ep.isMarketOpen }
      let r := s.set.feed offs ⟨ep.zone, some (ep.marketOpen, ordOf ep.lastTick.dt.wall)⟩ t
      (⟨ep, r.1⟩, r.2)
  | .zone n => match s.ep.setZone offs n with
    | .ok ep => ({ s with ep := ep }, none)
    | .error e => (s, some e)
  | .indicator ind =>
    let r := s.set.fs.addIndicator ind
    ({ s with set := { s.set with fs := r.1 } }, r.2)

/-- A run; the program goes on after exceptions. -/
def ZState.run (offs : ℕ → ℤ) (s : ZState) (l : List ZCmd) : ZState := l.foldl (fun s c => (s.exec offs c).1) s

end
end Estrade
