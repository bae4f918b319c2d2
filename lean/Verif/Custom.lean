import Verif.Frame

/-!
# Indicators written by users (estrade/graph/base_indicator.py, estrade/graph/frame_set.py)

`BaseIndicator` and `BaseIndicatorValue` are base classes; users derive indicators of their own.  Here the values are objects of
arbitrary classes: `β` is the type of their states, and `__init__`, `on_new_tick`, `build_value_from_frame` and the truth value
(`__bool__`, `__len__`) are arbitrary functions which may read all frames and may raise.

Simplified: user code changes nothing but the value object it belongs to; it does not read the epic.  `set_frame_set` is that of
`BaseIndicator`.
-/

set_option autoImplicit false

namespace Estrade

/-- `Frame` (frame_set.py:16-67) with values of type `β`. -/
structure UFrame (β : Type) where
  periodStart : ℤ
  periodEnd : Option ℤ
  prev : Option ℕ
  next : Option ℕ
  nbTicks : ℕ
  first : Tick
  high : Tick
  low : Tick
  last : Tick
  vals : Dict (Option β)

/-- The methods of value objects: `on_new_tick(tick, market_open)`, which leaves the object in some state and may raise, and
`bool(value)`.  The arguments are the frames, the parent frame and the object. -/
structure Methods (β : Type) where
  onNewTick : List (UFrame β) → UFrame β → β → Tick → Bool → β × Option PyErr
  truth : β → Bool

/-- An indicator: reference and `build_value_from_frame(frame, market_open)`; the arguments are the frames, the position and the
attributes of the frame under construction or update. -/
structure UInd (β : Type) where
  ref : String
  build : List (UFrame β) → ℕ → UFrame β → Bool → Except PyErr (Option β)

/-- `BaseIndicator.build_value_from_frame` (base_indicator.py:156-178) for a value class with constructor `init`. -/
def UInd.ofClass {β : Type} (ref : String) (only : Bool) (init : List (UFrame β) → ℕ → UFrame β → Except PyErr β) : UInd β :=
  ⟨ref, fun heap id f mo => if !only || mo then (init heap id f).map some else .ok none⟩

/-- `FrameSet` (frame_set.py:126-176). -/
structure UFrameSet (β : Type) where
  unit : Unit'
  qty : ℤ
  maxFrames : ℤ
  heap : List (UFrame β)
  frames : List ℕ
  indicators : Dict (UInd β)

/-- `frame.indicators.get(ref)` (frame_set.py:71-73). -/
def UFrame.get {β : Type} (f : UFrame β) (ref : String) : Option β := (f.vals.get? ref).join

section
variable [Arith] {β : Type}

/-- `Frame.on_new_tick` before the indicators (frame_set.py:114-121). -/
def UFrame.track (f : UFrame β) (tick : Tick) : UFrame β :=
  let f := { f with nbTicks := f.nbTicks + 1, last := tick }
  if f.high.value < tick.value then { f with high := tick }
  else if tick.value < f.low.value then { f with low := tick }
  else f

/-- The `Frame.__init__` fields before `_upsert_indicators` (frame_set.py:56-67). -/
def UFrame.fresh (tick : Tick) (ps : ℤ) (pe : Option ℤ) (prev : Option ℕ) : UFrame β :=
  ⟨ps, pe, prev, none, 1, tick, tick, tick, tick, []⟩

/-- One iteration of `Frame._upsert_indicators` (frame_set.py:94-101, 84-92): the stored object is asked for its truth value
(`if current_indicator_value:`). -/
def ufeedOne (M : Methods β) (heap : List (UFrame β)) (id : ℕ) (tick : Tick) (mo : Bool) (f : UFrame β) (p : String × UInd β) :
    UFrame β × Option PyErr :=
  let rebuild := match p.2.build heap id f mo with
    | .ok nv => ({ f with vals := f.vals.set p.2.ref nv }, none)
    | .error e => (f, some e)
  match f.get p.1 with
  | some v =>
    if M.truth v then
      let r := M.onNewTick heap f v tick mo
      ({ f with vals := f.vals.set p.1 (some r.1) }, r.2)
    else rebuild
  | none => rebuild

/-- `Frame._upsert_indicators` (frame_set.py:94-101): up to the first exception. -/
def ufeedInds (M : Methods β) (heap : List (UFrame β)) (id : ℕ) (tick : Tick) (mo : Bool) :
    Dict (UInd β) → UFrame β → UFrame β × Option PyErr
  | [], f => (f, none)
  | p :: rest, f => match ufeedOne M heap id tick mo f p with
    | (f', none) => ufeedInds M heap id tick mo rest f'
    | (f', some e) => (f', some e)

/-- `FrameSet.current` (frame_set.py:178-183). -/
def UFrameSet.current (fs : UFrameSet β) : Option (ℕ × UFrame β) :=
  match fs.frames.getLast? with
  | none => none
  | some i => (fs.heap[i]?).map (fun f => (i, f))

/-- `FrameSet.clean_old_frames` (frame_set.py:193-200). -/
def ufeedClean (max : ℤ) : List (UFrame β) → List ℕ → (List (UFrame β) × List ℕ) × Option PyErr
  | heap, [] => ((heap, []), if max < 0 then some .index else none)
  | heap, [a] => ((heap, [a]), if max < 1 then some .index else none)
  | heap, a :: b :: rest =>
    if max < ((a :: b :: rest).length : ℤ) then
      let heap := heap.modify b (fun f => { f with prev := none })
      let heap := heap.modify a (fun f => { f with next := none })
      ufeedClean max heap (b :: rest)
    else ((heap, a :: b :: rest), none)

/-- `if self.current: self.current.next_frame = new_frame` (frame_set.py:216-217). -/
def ulinkNext (heap : List (UFrame β)) (cur : Option ℕ) (id : ℕ) : List (UFrame β) :=
  match cur with
  | none => heap
  | some i => heap.modify i (fun g => { g with next := some id })

/-- `FrameSet.create_new_frame` (frame_set.py:202-219). -/
def UFrameSet.feedCreate (M : Methods β) (fs : UFrameSet β) (c : Ctx) (tick : Tick) (ps : ℤ) (pe : Option ℤ) :
    UFrameSet β × Option PyErr :=
  let id := fs.heap.length
  let cur := fs.frames.getLast?
  match ufeedInds M fs.heap id tick c.marketOpen fs.indicators (UFrame.fresh tick ps pe cur) with
  | (_, some e) => (fs, some e)
  | (f, none) =>
    let r := ufeedClean fs.maxFrames (ulinkNext fs.heap cur id ++ [f]) (fs.frames ++ [id])
    ({ fs with heap := r.1.1, frames := r.1.2 }, r.2)

/-- The gap filling loop (frame_set.py:224-230) with `fuel` iterations allowed. -/
def ufeedFill (M : Methods β) (c : Ctx) (ps : ℤ) : ℕ → UFrameSet β → UFrameSet β × Option PyErr
  | fuel, fs =>
    match fs.current with
    | none => (fs, none)
    | some (_, f) =>
      match f.periodEnd with
      | none => (fs, some .attr)
      | some pe =>
        if pe < ps then
          match fuel with
          | 0 => (fs, some .diverge)
          | fuel + 1 =>
            match fs.feedCreate M c f.last pe (some (frameEnd c.zone fs.unit fs.qty pe)) with
            | (fs', none) => ufeedFill M c ps fuel fs'
            | (fs', some e) => (fs', some e)
        else (fs, none)

/-- Number of iterations allowed to the loop, as `fillFuel`. -/
def ufillFuel (fs : UFrameSet β) (ps : ℤ) : ℕ :=
  match fs.current with
  | none => 0
  | some (_, f) => match f.periodEnd with
    | none => 0
    | some pe => (ps - pe).toNat

/-- `FrameSet._create_new_frame_timed` (frame_set.py:221-232). -/
def UFrameSet.feedTimed (M : Methods β) (fs : UFrameSet β) (c : Ctx) (tick : Tick) : UFrameSet β × Option PyErr :=
  match frameStart fs.unit fs.qty tick.dt.wall with
  | .error e => (fs, some e)
  | .ok ps =>
    match ufeedFill M c ps (ufillFuel fs ps) fs with
    | (fs', none) => fs'.feedCreate M c tick ps (some (frameEnd c.zone fs.unit fs.qty ps))
    | (fs', some e) => (fs', some e)

/-- `FrameSet.add_tick_to_last` / `Frame.on_new_tick` (frame_set.py:258-260, 103-123). -/
def UFrameSet.feedLast (M : Methods β) (fs : UFrameSet β) (c : Ctx) (tick : Tick) : UFrameSet β × Option PyErr :=
  match fs.current with
  | none => (fs, none)
  | some (i, f) =>
    let r := ufeedInds M fs.heap i tick c.marketOpen fs.indicators (f.track tick)
    ({ fs with heap := fs.heap.set i r.1 }, r.2)

/-- `FrameSet.is_frame_over_timed` (frame_set.py:243-246). -/
def UFrameSet.overTimed (fs : UFrameSet β) (tick : Tick) : Except PyErr Bool :=
  match fs.current with
  | none => .ok true
  | some (_, f) => match f.periodEnd with
    | none => .error .attr
    | some pe => .ok (decide (pe ≤ tick.dt.wall))

/-- `FrameSet.is_frame_over_tick` (frame_set.py:248-256). -/
def UFrameSet.overTick (fs : UFrameSet β) (c : Ctx) (tick : Tick) : Bool :=
  match fs.current with
  | none => true
  | some (_, f) =>
    decide (fs.qty ≤ (f.nbTicks : ℤ)) ||
    match c.epic with
    | none => true
    | some (_, lastDate) => decide (lastDate < ordOf tick.dt.wall)

/-- `FrameSet.on_new_tick` (frame_set.py:262-279, 167-171). -/
def UFrameSet.feed (M : Methods β) (fs : UFrameSet β) (c : Ctx) (tick : Tick) : UFrameSet β × Option PyErr :=
  if fs.unit = .tick then
    if fs.overTick c tick then fs.feedCreate M c tick tick.dt.wall none
    else fs.feedLast M c tick
  else
    match fs.overTimed tick with
    | .error e => (fs, some e)
    | .ok over => if over then fs.feedTimed M c tick else fs.feedLast M c tick

end

/-- `FrameSet.add_indicator` (frame_set.py:189-191). -/
def UFrameSet.addIndicator {β : Type} (fs : UFrameSet β) (ind : UInd β) : UFrameSet β :=
  { fs with indicators := fs.indicators.set ind.ref ind }

/-- A registration or a tick. -/
inductive UCmd (β : Type)
  | add (ind : UInd β)
  | tick (c : Ctx) (t : Tick)

/-- Execution of a command: the state afterwards and the exception, if any. -/
def UCmd.exec [Arith] {β : Type} (M : Methods β) (fs : UFrameSet β) : UCmd β → UFrameSet β × Option PyErr
  | .add ind => (fs.addIndicator ind, none)
  | .tick c t => fs.feed M c t

/-- A run: goes on after exceptions. -/
def UFrameSet.run [Arith] {β : Type} (M : Methods β) (fs : UFrameSet β) (l : List (UCmd β)) : UFrameSet β :=
  l.foldl (fun fs c => (c.exec M fs).1) fs

end Estrade
