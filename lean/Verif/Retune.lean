import Verif.Frame

/-!
# A frame set whose attributes are assigned while it runs (estrade/graph/frame_set.py, estrade/mixins/timeframe.py)

`unit`, `unit_quantity` and `max_frames_in_memory` are public.  The constructor chooses the functions that find the start of a period
(timeframe.py:18-28) and decide whether a frame is over (frame_set.py:167-171) by the unit it is given, and stores the length of a
period in `_timedelta` (timeframe.py:30-32): assignments do not change these.  `unit_quantity` is read again by the functions for
the start (timeframe.py:84-162), for frames of ticks (frame_set.py:251) and by the RSI (rsi.py:131).  In `Frame` one quantity stands for both.
-/

set_option autoImplicit false

namespace Estrade

/-- A frame set: `fs.unit` is the unit given to the constructor, `fs.qty` and `fs.maxFrames` are the attributes now, `step` is the quantity in
`_timedelta`, `unit` the attribute. -/
structure Tuned where
  fs : FrameSet
  step : ℤ
  unit : Unit'
  deriving DecidableEq

/-- `FrameSet.__init__` (frame_set.py:148-176, timeframe.py:13-34). -/
def Tuned.new (u : Unit') (q m : ℤ) : Except PyErr Tuned := do
  let fs ← FrameSet.new u q m
  .ok ⟨fs, q, u⟩

/-- What a program does with a frame set. -/
inductive TuneCmd
  /-- `frame_set.on_new_tick(tick)` -/
  | tick (c : Ctx) (t : Tick)
  /-- `frame_set.unit_quantity = q` -/
  | quantity (q : ℤ)
  /-- `frame_set.max_frames_in_memory = m` -/
  | memory (m : ℤ)
  /-- `frame_set.unit = u` -/
  | unit (u : Unit')
  /-- `frame_set.add_indicator(indicator)` -/
  | indicator (ind : Indicator)

section
variable [Arith]

/-- The gap filling loop (frame_set.py:224-230). -/
def tunedFill (step : ℤ) (c : Ctx) (ps : ℤ) : ℕ → FrameSet → FrameSet × Option PyErr
  | fuel, fs =>
    match fs.current with
    | none => (fs, none)
    | some (_, f) =>
      match f.periodEnd with
      | none => (fs, some .attr)
      | some pe =>
        if pe < ps then
          match fuel with
          | 0 => (fs, some .diverge)
          | fuel + 1 =>
            match fs.feedCreate c f.last pe (some (frameEnd c.zone fs.unit step pe)) with
            | (fs', none) => tunedFill step c ps fuel fs'
            | (fs', some e) => (fs', some e)
        else (fs, none)

/-- `FrameSet._create_new_frame_timed` (frame_set.py:221-232): the start by `unit_quantity`, the end by `_timedelta`. -/
def tunedTimed (step : ℤ) (fs : FrameSet) (c : Ctx) (tick : Tick) : FrameSet × Option PyErr :=
  match frameStart fs.unit fs.qty tick.dt.wall with
  | .error e => (fs, some e)
  | .ok ps =>
    match tunedFill step c ps (fillFuel fs ps) fs with
    | (fs', none) => fs'.feedCreate c tick ps (some (frameEnd c.zone fs.unit step ps))
    | (fs', some e) => (fs', some e)

/-- `FrameSet.on_new_tick` (frame_set.py:262-279, 167-171). -/
def tunedFeed (step : ℤ) (fs : FrameSet) (c : Ctx) (tick : Tick) : FrameSet × Option PyErr :=
  if fs.unit = .tick then
    if fs.overTick c tick then fs.feedCreate c tick tick.dt.wall none
    else fs.feedLast c tick
  else
    match fs.overTimed tick with
    | .error e => (fs, some e)
    | .ok over => if over then tunedTimed step fs c tick else fs.feedLast c tick

/-- One command. -/
def Tuned.exec (s : Tuned) : TuneCmd → Tuned × Option PyErr
  | .tick c t => let r := tunedFeed s.step s.fs c t; ({ s with fs := r.1 }, r.2)
  | .quantity q => ({ s with fs := { s.fs with qty := q } }, none)
  | .memory m => ({ s with fs := { s.fs with maxFrames := m } }, none)
  | .unit u => ({ s with unit := u }, none)
  | .indicator ind => let r := s.fs.addIndicator ind; ({ s with fs := r.1 }, r.2)

/-- A run: the state afterwards and what each command raised; the program goes on after exceptions. -/
def Tuned.run (s : Tuned) : List TuneCmd → Tuned × List (Option PyErr)
  | [] => (s, [])
  | c :: l =>
    let r := s.exec c
    let rs := r.1.run l
    (rs.1, r.2 :: rs.2)

end

end Estrade
