import Verif.World

/-!
# Datetimes of the years 1 to 9999 (mixins/timeframe.py:52-162; frame_set.py:221-279; epic.py:243-255)

`Timeframe` and `Frame` compute with wall clocks of any year.  Python's datetimes end: a result before `datetime.min` or after `datetime.max`
raises.  Here are the functions that compute datetimes with these exceptions, and what they leave behind.

`inst w` is the instant of wall clock `w` in the timezone (`datetime.astimezone(UTC)`); for a zone of constant offset it is `w` minus the
offset.  Assumed of the libraries (CPython, arrow 0.17, dateutil), besides what `Time` and `Timeframe` assume:

* `dt - timedelta` and `dt + timedelta` raise OverflowError out of range, `dt.replace` raises ValueError;
* `Arrow.shift` adds a `relativedelta` (years and months by `replace`, the other units by a `timedelta`) and asks `datetime_exists`, which
  converts the result to UTC and raises OverflowError if the instant is out of range, and for a wall clock that does not exist looks at the
  offsets 24 hours before and after;
* `Arrow.to` converts through UTC, except a datetime whose tzinfo is that of the target already.

Simplified: the quantities of years are those of a C int (beyond, `replace` raises OverflowError instead of ValueError).
-/

set_option autoImplicit false

namespace Estrade

/-- `datetime.min <= w <= datetime.max`: the days of ordinal 1 to 3652059. -/
def inCal (w : ℤ) : Bool := decide (dayUs ≤ w ∧ w < 3652060 * dayUs)

/-- The exception for a wall clock out of range: `replace` computes months and years, `timedelta` everything else. -/
def calErr (u : Unit') : PyErr := if u = .month ∨ u = .year then .value else .overflow

/-- `get_frame_start` (timeframe.py:52-63, 84-162). -/
def calStart (u : Unit') (q w : ℤ) : Except PyErr ℤ :=
  match frameStart u q w with
  | .error e => .error e
  | .ok s => if inCal s then .ok s else .error (calErr u)

/-- `get_frame_end` (timeframe.py:65-78), for the units other than ticks. -/
def calEnd (z : Zone) (inst : ℤ → ℤ) (u : Unit') (q s : ℤ) : Except PyErr ℤ :=
  let w := shiftUnit u q s
  if !inCal w then .error (calErr u)
  else if !inCal (inst w) then .error .overflow
  else if z.resolve w = w then .ok w
  else if inCal (w - dayUs) && inCal (w + dayUs) && inCal (z.resolve w) then .ok (z.resolve w)
  else .error .overflow

/-- More iterations than there are datetimes. -/
def calFuel : ℕ := (3652060 * dayUs).toNat

section
variable [Arith]

/-- The gap filling loop (frame_set.py:224-230): the frames made before an exception stay. -/
def calFill (inst : ℤ → ℤ) (c : Ctx) (ps : ℤ) : ℕ → FrameSet → FrameSet × Option PyErr
  | fuel, fs =>
    match fs.current with
    | none => (fs, none)
    | some (_, f) =>
      match f.periodEnd with
      | none => (fs, some .attr)
      | some pe =>
        if pe < ps then
          match fuel with
          | 0 => (fs, some .diverge)
          | fuel + 1 =>
            match calEnd c.zone inst fs.unit fs.qty pe with
            | .error e => (fs, some e)
            | .ok e =>
              match fs.feedCreate c f.last pe (some e) with
              | (fs', none) => calFill inst c ps fuel fs'
              | (fs', some e) => (fs', some e)
        else (fs, none)

/-- `FrameSet._create_new_frame_timed` (frame_set.py:221-232): both bounds of the new frame are computed before the loop. -/
def FrameSet.calTimed (inst : ℤ → ℤ) (fs : FrameSet) (c : Ctx) (tick : Tick) : FrameSet × Option PyErr :=
  match calStart fs.unit fs.qty tick.dt.wall with
  | .error e => (fs, some e)
  | .ok ps =>
    match calEnd c.zone inst fs.unit fs.qty ps with
    | .error e => (fs, some e)
    | .ok pe =>
      match calFill inst c ps calFuel fs with
      | (fs', none) => fs'.feedCreate c tick ps (some pe)
      | (fs', some e) => (fs', some e)

/-- `FrameSet.on_new_tick` (frame_set.py:262-279): frame sets of ticks compute no datetime. -/
def FrameSet.calFeed (inst : ℤ → ℤ) (fs : FrameSet) (c : Ctx) (tick : Tick) : FrameSet × Option PyErr :=
  if fs.unit = .tick then fs.feed c tick
  else
    match fs.overTimed tick with
    | .error e => (fs, some e)
    | .ok over => if over then fs.calTimed inst c tick else fs.feedLast c tick

/-- Calls on a frame set. -/
inductive CalCmd
  /-- `frame_set.on_new_tick(t)`, with market state and date of its epic, if it has one -/
  | tick (epic : Option (Bool × ℤ)) (t : Tick)
  /-- `frame_set.add_indicator(ind)` -/
  | indicator (ind : Indicator)

/-- Execution of a call. -/
def FrameSet.calExec (z : Zone) (inst : ℤ → ℤ) (fs : FrameSet) : CalCmd → FrameSet × Option PyErr
  | .tick e t => fs.calFeed inst ⟨z, e⟩ t
  | .indicator ind => fs.addIndicator ind

/-- The frame set after some calls; the program goes on after exceptions. -/
def FrameSet.calRun (z : Zone) (inst : ℤ → ℤ) (fs : FrameSet) (l : List CalCmd) : FrameSet := l.foldl (fun s x => (s.calExec z inst x).1) fs

/-! ## The epic -/

/-- `Arrow.to(tz)` (epic.py:244). -/
def DT.calTo (d : DT) (z : Zone) : Except PyErr DT :=
  if d.tz = z.id then .ok (d.to z)
  else if inCal d.utc && inCal (d.utc + z.off d.utc) then .ok (d.to z)
  else .error .overflow

/-- `Epic._update_frame_sets` (epic.py:206-208). -/
def calSets (inst : ℤ → ℤ) (c : Ctx) (tick : Tick) : Dict FrameSet → Dict FrameSet × Option PyErr
  | [] => ([], none)
  | (k, fs) :: rest =>
    match fs.calFeed inst c tick with
    | (fs', some err) => ((k, fs') :: rest, some err)
    | (fs', none) =>
      let r := calSets inst c tick rest
      ((k, fs') :: r.1, r.2)

/-- The part of `Epic.on_new_tick` that concerns the epic itself (epic.py:250-255), for a converted tick. -/
def Epic.calAccept (inst : ℤ → ℤ) (ep : Epic) (tick : Tick) : Epic × Option PyErr :=
  let ep := { ep with lastTick := tick }
  let ep := { ep with marketOpen := ep.isMarketOpen }
  let r := calSets inst ⟨ep.zone, some (ep.marketOpen, ordOf ep.lastTick.dt.wall)⟩ tick ep.frameSets
  ({ ep with frameSets := r.1 }, r.2)

/-- `Epic.on_new_tick` (epic.py:243-253): conversion, order of the ticks, last tick, market state, frame sets. -/
def Epic.calTick (inst : ℤ → ℤ) (ep : Epic) (tick : Tick) : Epic × Option PyErr :=
  match tick.dt.calTo ep.zone with
  | .error e => (ep, some e)
  | .ok dt => if dt.lt ep.lastTick.dt then (ep, some .epic) else ep.calAccept inst { tick with dt := dt }

/-! ## The world -/

/-- `Epic.on_new_tick` (epic.py:227-259) with trades and strategies; `inst e` gives the instants of the zone of epic `e`. -/
def World.calTick (env : Env) (inst : ℕ → ℤ → ℤ) (w : World) (e : ℕ) (tick : Tick) : World × Option PyErr :=
  match w.epics[e]? with
  | none => (w, some .attr)
  | some ep =>
    match tick.dt.calTo ep.zone with
    | .error err => (w, some err)
    | .ok dt =>
      let tick := { tick with dt := dt }
      if tick.dt.lt ep.lastTick.dt then (w, some .epic)
      else
        let r := ep.calAccept (inst e) tick
        let w := { w with epics := w.epics.set e r.1, log := w.log ++ [.accepted e tick] }
        match r.2 with
        | some err => (w, some err)
        | none =>
          let w := w.updateOpenTrades ep.provider tick
          execStrategies env e ep.marketOpen tick.dt w (ep.strategies.map Prod.snd)

/-- Execution of a command; only ticks compute datetimes. -/
def World.calExec (env : Env) (inst : ℕ → ℤ → ℤ) (w : World) : Cmd → World × Option PyErr
  | .tick e t => w.calTick env inst e t
  | c => w.exec env c

/-- A run; the program goes on after exceptions. -/
def World.calRun (env : Env) (inst : ℕ → ℤ → ℤ) (w : World) (l : List Cmd) : World := l.foldl (fun w c => (w.calExec env inst c).1) w

end
end Estrade
