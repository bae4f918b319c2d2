import Verif.Tick
import Verif.Timeframe

/-!
# Frames, frame sets and indicator values
(estrade/graph/frame_set.py, estrade/graph/base_indicator.py and the stateful parts of
estrade/graph/indicators/rsi.py and simple_moving_average.py)

Frames are objects with identity: `FrameSet.heap` contains every frame ever created (its id is its
position), `FrameSet.frames` the ids of the frames in memory, `prev`/`next` are ids.
-/

namespace Estrade

/-- The indicator classes of the library with their parameters.
`rsi periods rsiPeriods`: `rsi_periods` is set by `set_frame_set` (rsi.py:112-135). -/
inductive Kind
  | base | japanese | heikin | pivotClassic | pivotOLHC
  | sma (maxPeriods : ℤ)
  | rsi (periods : ℤ) (rsiPeriods : Option ℤ)
  deriving DecidableEq

/-- `BaseIndicator` (base_indicator.py:108-139). -/
structure Indicator where
  ref : String
  kind : Kind
  marketOpenOnly : Bool
  deriving DecidableEq

/-- `BaseIndicatorValue` (base_indicator.py:15-46) with the extra attributes of
`SimpleMovingAverageValue` (`closes` = `last_closes`) and `RSIValue` (`changes` = `last_changes`,
`rsi` = `value`). `frame` is the id of the parent frame. -/
structure IndVal where
  ind : Indicator
  frame : ℕ
  first : Tick
  high : Tick
  low : Tick
  last : Tick
  closes : List ℚ
  changes : List ℚ
  rsi : Option ℚ
  deriving DecidableEq

/-- `Frame` (frame_set.py:16-67). -/
structure Frame where
  periodStart : ℤ
  periodEnd : Option ℤ
  prev : Option ℕ
  next : Option ℕ
  nbTicks : ℕ
  first : Tick
  high : Tick
  low : Tick
  last : Tick
  inds : Dict (Option IndVal)
  deriving DecidableEq

/-- `Frame.closed` (frame_set.py:75-82). -/
def Frame.closed (f : Frame) : Bool := f.next.isSome

/-- `Frame.__getitem__` / `frame.indicators.get(ref)` (frame_set.py:71-73). -/
def Frame.get (f : Frame) (ref : String) : Option IndVal := (f.inds.get? ref).join

/-- `FrameSet` (frame_set.py:126-176). -/
structure FrameSet where
  unit : Unit'
  qty : ℤ
  maxFrames : ℤ
  heap : List Frame
  frames : List ℕ
  indicators : Dict Indicator
  deriving DecidableEq

/-- `FrameSet.__init__` (frame_set.py:148-176). -/
def FrameSet.new (u : Unit') (q : ℤ) (maxFrames : ℤ) : Except PyErr FrameSet := do
  checkTimeframe u q
  .ok ⟨u, q, maxFrames, [], [], []⟩

/-- What a frame set sees of its epic during a tick: the zone of the datetimes, and, when attached,
`epic.market_open` and `epic.last_tick.datetime.date()` (frame_set.py:186-187, 248-256). -/
structure Ctx where
  zone : Zone
  epic : Option (Bool × ℤ)

/-- `FrameSet.epic_market_open` (frame_set.py:185-187). -/
def Ctx.marketOpen (c : Ctx) : Bool := match c.epic with
  | none => false
  | some (b, _) => b

section
variable [Arith]

/-- `BaseIndicatorValue.previous` started at a frame link (base_indicator.py:48-63): follow
`previous_frame` until a frame has a value.  The `fuel` bounds the walk; the chain visits each frame at most
once, so `heap.length` suffices (`prevValue_spec` in the proofs). -/
def prevValue (heap : List Frame) (ref : String) : ℕ → Option ℕ → Option IndVal
  | 0, _ => none
  | _ + 1, none => none
  | fuel + 1, some i =>
    match heap[i]? with
    | none => none
    | some f =>
      match f.get ref with
      | some v => some v
      | none => prevValue heap ref fuel f.prev

/-- `SimpleMovingAverageValue.extended_closes` of a value on frame `f` (simple_moving_average.py:43-46). -/
def extendedCloses (v : IndVal) (f : Frame) : List ℚ := v.closes ++ [f.last.value]

/-- `RSIValue.extended_changes` of a value on frame `f` (rsi.py:55-64). -/
def extendedChanges (heap : List Frame) (v : IndVal) (f : Frame) : List ℚ :=
  match f.prev with
  | none => []
  | some p =>
    match heap[p]? with
    | none => []
    | some g => v.changes ++ [fsub f.last.value g.last.value]

/-- `previous.extended_closes[:]`: AttributeError if the previous value is no SMA value. -/
def prevCloses (heap : List Frame) (p : IndVal) : Except PyErr (List ℚ) :=
  match p.ind.kind with
  | .sma _ => match heap[p.frame]? with
    | none => .error .attr
    | some g => .ok (extendedCloses p g)
  | _ => .error .attr

/-- `previous.extended_changes[:]`: AttributeError if the previous value is no RSI value. -/
def prevChanges (heap : List Frame) (p : IndVal) : Except PyErr (List ℚ) :=
  match p.ind.kind with
  | .rsi _ _ => match heap[p.frame]? with
    | none => .error .attr
    | some g => .ok (extendedChanges heap p g)
  | _ => .error .attr

/-- `RSIValue._build_sums` (rsi.py:78-87). -/
def buildSums (l : List ℚ) : ℚ × ℚ :=
  l.foldl (fun s v => if 0 ≤ v then (fadd s.1 v, s.2) else (s.1, fadd s.2 v)) (0, 0)

/-- `RSIValue._build_rsi` (rsi.py:66-76). -/
def buildRsi (n : ℤ) (l : List ℚ) : Except PyErr ℚ :=
  let s := buildSums l
  if s.2 = 0 then .ok 100
  else if s.1 = 0 then .ok 0
  else do
    let pa ← pyDiv s.1 n
    let na ← pyDiv s.2 n
    let rs ← pyDiv pa |na|
    let d ← pyDiv 100 (fadd 1 rs)
    .ok (rnd (fsub 100 d))

/-- `RSIValue._update_rsi` (rsi.py:89-91). -/
def updateRsi (heap : List Frame) (f : Frame) (n : ℤ) (v : IndVal) : Except PyErr IndVal :=
  let ec := extendedChanges heap v f
  if n ≠ 0 ∧ (ec.length : ℤ) = n then do
    let r ← buildRsi n ec
    .ok { v with rsi := some r }
  else .ok v

/-- `BaseIndicatorValue.__init__` (base_indicator.py:28-46) on frame `f` with id `id`. -/
def IndVal.base (ind : Indicator) (id : ℕ) (f : Frame) : IndVal :=
  ⟨ind, id, f.last, f.last, f.last, f.last, [], [], none⟩

/-- The constructors of the value classes: `SimpleMovingAverageValue.__init__`
(simple_moving_average.py:22-41), `RSIValue.__init__` (rsi.py:23-53), and the plain one. -/
def IndVal.new (heap : List Frame) (ind : Indicator) (id : ℕ) (f : Frame) : Except PyErr IndVal :=
  let v := IndVal.base ind id f
  match ind.kind with
  | .sma mp => do
    let lc ← match prevValue heap ind.ref heap.length f.prev with
      | none => .ok []
      | some p => prevCloses heap p
    .ok { v with closes := sliceFrom lc ((mp - 1) * -1) }
  | .rsi _ rp =>
    match rp with
    | none => .error .indicator
    | some n =>
      if n = 0 then .error .indicator
      else do
        let lc ← match prevValue heap ind.ref heap.length f.prev with
          | none => .ok []
          | some p => prevChanges heap p
        updateRsi heap f n { v with changes := sliceFrom lc ((n - 1) * -1) }
  | _ => .ok v

/-- `BaseIndicator.build_value_from_frame` (base_indicator.py:156-178). -/
def Indicator.build (heap : List Frame) (ind : Indicator) (id : ℕ) (f : Frame) (mo : Bool) :
    Except PyErr (Option IndVal) :=
  if !ind.marketOpenOnly || mo then do
    let v ← IndVal.new heap ind id f
    .ok (some v)
  else .ok none

/-- `BaseIndicatorValue.on_new_tick` (base_indicator.py:98-105). -/
def IndVal.track (v : IndVal) (tick : Tick) (mo : Bool) : IndVal :=
  if !v.ind.marketOpenOnly || mo then
    let v := { v with last := tick }
    if v.high.value < tick.value then { v with high := tick }
    else if tick.value < v.low.value then { v with low := tick }
    else v
  else v

/-- `on_new_tick` of the value classes (`RSIValue.on_new_tick`, rsi.py:93-95). -/
def IndVal.onNewTick (heap : List Frame) (f : Frame) (v : IndVal) (tick : Tick) (mo : Bool) :
    Except PyErr IndVal :=
  let v' := v.track tick mo
  match v.ind.kind with
  | .rsi _ (some n) => updateRsi heap f n v'
  | _ => .ok v'

/-- One iteration of `Frame._upsert_indicators` (frame_set.py:94-101, 84-92). -/
def upsertOne (heap : List Frame) (id : ℕ) (tick : Tick) (mo : Bool) (f : Frame)
    (p : String × Indicator) : Except PyErr Frame :=
  match f.get p.1 with
  | some v => do
    let v' ← v.onNewTick heap f tick mo
    .ok { f with inds := f.inds.set p.1 (some v') }
  | none => do
    let nv ← p.2.build heap id f mo
    .ok { f with inds := f.inds.set p.2.ref nv }

/-- `Frame._upsert_indicators` (frame_set.py:94-101). -/
def upsert (heap : List Frame) (id : ℕ) (tick : Tick) (mo : Bool) (inds : Dict Indicator)
    (f : Frame) : Except PyErr Frame :=
  inds.foldlM (upsertOne heap id tick mo) f

/-- `Frame.on_new_tick` before the indicators (frame_set.py:114-121). -/
def Frame.track (f : Frame) (tick : Tick) : Frame :=
  let f := { f with nbTicks := f.nbTicks + 1, last := tick }
  if f.high.value < tick.value then { f with high := tick }
  else if tick.value < f.low.value then { f with low := tick }
  else f

/-- `FrameSet.current` (frame_set.py:178-183): id and object. -/
def FrameSet.current (fs : FrameSet) : Option (ℕ × Frame) :=
  match fs.frames.getLast? with
  | none => none
  | some i => (fs.heap[i]?).map (fun f => (i, f))

/-- `FrameSet.clean_old_frames` (frame_set.py:193-200) on the heap and the list of ids. -/
def cleanLoop (max : ℤ) : List Frame → List ℕ → Except PyErr (List Frame × List ℕ)
  | heap, [] => if max < 0 then .error .index else .ok (heap, [])
  | heap, [a] => if max < 1 then .error .index else .ok (heap, [a])
  | heap, a :: b :: rest =>
    if max < ((a :: b :: rest).length : ℤ) then
      let heap := heap.modify b (fun f => { f with prev := none })
      let heap := heap.modify a (fun f => { f with next := none })
      cleanLoop max heap (b :: rest)
    else .ok (heap, a :: b :: rest)

/-- The `Frame.__init__` fields before `_upsert_indicators` (frame_set.py:56-67). -/
def Frame.fresh (tick : Tick) (ps : ℤ) (pe : Option ℤ) (prev : Option ℕ) : Frame :=
  ⟨ps, pe, prev, none, 1, tick, tick, tick, tick, []⟩

/-- `if self.current: self.current.next_frame = new_frame` (frame_set.py:216-217). -/
def linkNext (heap : List Frame) (cur : Option ℕ) (id : ℕ) : List Frame :=
  match cur with
  | none => heap
  | some i => heap.modify i (fun g => { g with next := some id })

/-- `FrameSet.create_new_frame` (frame_set.py:202-219). -/
def FrameSet.createFrame (fs : FrameSet) (c : Ctx) (tick : Tick) (ps : ℤ) (pe : Option ℤ) :
    Except PyErr FrameSet := do
  let id := fs.heap.length
  let cur := fs.frames.getLast?
  let f ← upsert fs.heap id tick c.marketOpen fs.indicators (Frame.fresh tick ps pe cur)
  let r ← cleanLoop fs.maxFrames (linkNext fs.heap cur id ++ [f]) (fs.frames ++ [id])
  .ok { fs with heap := r.1, frames := r.2 }

/-- The gap filling loop of `FrameSet._create_new_frame_timed` (frame_set.py:224-230) with `fuel`
iterations allowed; `diverge` when they do not suffice. -/
def fillLoop (c : Ctx) (ps : ℤ) : ℕ → FrameSet → Except PyErr FrameSet
  | fuel, fs =>
    match fs.current with
    | none => .ok fs
    | some (_, f) =>
      match f.periodEnd with
      | none => .error .attr
      | some pe =>
        if pe < ps then
          match fuel with
          | 0 => .error .diverge
          | fuel + 1 => do
            let fs' ← fs.createFrame c f.last pe (some (frameEnd c.zone fs.unit fs.qty pe))
            fillLoop c ps fuel fs'
        else .ok fs

/-- Number of iterations allowed to the loop: one per microsecond of the gap.  Enough whenever
periods have positive length; see `fillLoop_diverges` for the other case. -/
def fillFuel (fs : FrameSet) (ps : ℤ) : ℕ :=
  match fs.current with
  | none => 0
  | some (_, f) => match f.periodEnd with
    | none => 0
    | some pe => (ps - pe).toNat

/-- `FrameSet._create_new_frame_timed` (frame_set.py:221-232). -/
def FrameSet.createTimed (fs : FrameSet) (c : Ctx) (tick : Tick) : Except PyErr FrameSet := do
  let ps ← frameStart fs.unit fs.qty tick.dt.wall
  let pe := frameEnd c.zone fs.unit fs.qty ps
  let fs' ← fillLoop c ps (fillFuel fs ps) fs
  fs'.createFrame c tick ps (some pe)

/-- `FrameSet.is_frame_over_timed` (frame_set.py:243-246). -/
def FrameSet.overTimed (fs : FrameSet) (tick : Tick) : Except PyErr Bool :=
  match fs.current with
  | none => .ok true
  | some (_, f) => match f.periodEnd with
    | none => .error .attr
    | some pe => .ok (decide (pe ≤ tick.dt.wall))

/-- `FrameSet.is_frame_over_tick` (frame_set.py:248-256). -/
def FrameSet.overTick (fs : FrameSet) (c : Ctx) (tick : Tick) : Bool :=
  match fs.current with
  | none => true
  | some (_, f) =>
    decide (fs.qty ≤ (f.nbTicks : ℤ)) ||
    match c.epic with
    | none => true
    | some (_, lastDate) => decide (lastDate < ordOf tick.dt.wall)

/-- `FrameSet.add_tick_to_last` / `Frame.on_new_tick` (frame_set.py:258-260, 103-123). -/
def FrameSet.addToLast (fs : FrameSet) (c : Ctx) (tick : Tick) : Except PyErr FrameSet :=
  match fs.current with
  | none => .ok fs
  | some (i, f) => do
    let f' ← upsert fs.heap i tick c.marketOpen fs.indicators (f.track tick)
    .ok { fs with heap := fs.heap.set i f' }

/-- `FrameSet.on_new_tick` (frame_set.py:262-279, 167-171). -/
def FrameSet.onNewTick (fs : FrameSet) (c : Ctx) (tick : Tick) : Except PyErr FrameSet :=
  if fs.unit = .tick then
    if fs.overTick c tick then fs.createFrame c tick tick.dt.wall none
    else fs.addToLast c tick
  else do
    let over ← fs.overTimed tick
    if over then fs.createTimed c tick else fs.addToLast c tick

/-! ## The state left behind by an exception

The functions above describe calls that return.  The following ones are the same calls with the state in which
Python leaves the objects when one raises; `feed_eq` (Lemmas/Feed.lean) proves that both agree on the exception and, when
there is none, on the state. -/

/-- One iteration of `Frame._upsert_indicators` (frame_set.py:94-101).  A value whose update raises has tracked the
tick already (rsi.py:93-95: `super().on_new_tick` comes first); one whose construction raises is not stored. -/
def feedOne (heap : List Frame) (id : ℕ) (tick : Tick) (mo : Bool) (f : Frame) (p : String × Indicator) :
    Frame × Option PyErr :=
  match f.get p.1 with
  | some v => match v.onNewTick heap f tick mo with
    | .ok v' => ({ f with inds := f.inds.set p.1 (some v') }, none)
    | .error e => ({ f with inds := f.inds.set p.1 (some (v.track tick mo)) }, some e)
  | none => match p.2.build heap id f mo with
    | .ok nv => ({ f with inds := f.inds.set p.2.ref nv }, none)
    | .error e => (f, some e)

/-- `Frame._upsert_indicators` (frame_set.py:94-101): up to the first exception. -/
def feedInds (heap : List Frame) (id : ℕ) (tick : Tick) (mo : Bool) : Dict Indicator → Frame → Frame × Option PyErr
  | [], f => (f, none)
  | p :: rest, f => match feedOne heap id tick mo f p with
    | (f', none) => feedInds heap id tick mo rest f'
    | (f', some e) => (f', some e)

/-- `FrameSet.clean_old_frames` (frame_set.py:193-200): `self.frames[1]` raises IndexError when at most one frame is
left, after the older ones have been dropped. -/
def feedClean (max : ℤ) : List Frame → List ℕ → (List Frame × List ℕ) × Option PyErr
  | heap, [] => ((heap, []), if max < 0 then some .index else none)
  | heap, [a] => ((heap, [a]), if max < 1 then some .index else none)
  | heap, a :: b :: rest =>
    if max < ((a :: b :: rest).length : ℤ) then
      let heap := heap.modify b (fun f => { f with prev := none })
      let heap := heap.modify a (fun f => { f with next := none })
      feedClean max heap (b :: rest)
    else ((heap, a :: b :: rest), none)

/-- `FrameSet.create_new_frame` (frame_set.py:202-219): an exception in `Frame.__init__` changes nothing, one in
`clean_old_frames` comes after the frame is linked and appended. -/
def FrameSet.feedCreate (fs : FrameSet) (c : Ctx) (tick : Tick) (ps : ℤ) (pe : Option ℤ) : FrameSet × Option PyErr :=
  let id := fs.heap.length
  let cur := fs.frames.getLast?
  match upsert fs.heap id tick c.marketOpen fs.indicators (Frame.fresh tick ps pe cur) with
  | .error e => (fs, some e)
  | .ok f =>
    let r := feedClean fs.maxFrames (linkNext fs.heap cur id ++ [f]) (fs.frames ++ [id])
    ({ fs with heap := r.1.1, frames := r.1.2 }, r.2)

/-- The gap filling loop (frame_set.py:224-230): the frames made before an exception stay. -/
def feedFill (c : Ctx) (ps : ℤ) : ℕ → FrameSet → FrameSet × Option PyErr
  | fuel, fs =>
    match fs.current with
    | none => (fs, none)
    | some (_, f) =>
      match f.periodEnd with
      | none => (fs, some .attr)
      | some pe =>
        if pe < ps then
          match fuel with
          | 0 => (fs, some .diverge)
          | fuel + 1 =>
            match fs.feedCreate c f.last pe (some (frameEnd c.zone fs.unit fs.qty pe)) with
            | (fs', none) => feedFill c ps fuel fs'
            | (fs', some e) => (fs', some e)
        else (fs, none)

/-- `FrameSet._create_new_frame_timed` (frame_set.py:221-232). -/
def FrameSet.feedTimed (fs : FrameSet) (c : Ctx) (tick : Tick) : FrameSet × Option PyErr :=
  match frameStart fs.unit fs.qty tick.dt.wall with
  | .error e => (fs, some e)
  | .ok ps =>
    match feedFill c ps (fillFuel fs ps) fs with
    | (fs', none) => fs'.feedCreate c tick ps (some (frameEnd c.zone fs.unit fs.qty ps))
    | (fs', some e) => (fs', some e)

/-- `FrameSet.add_tick_to_last` / `Frame.on_new_tick` (frame_set.py:258-260, 103-123): the ticks of the frame are
updated before the indicators. -/
def FrameSet.feedLast (fs : FrameSet) (c : Ctx) (tick : Tick) : FrameSet × Option PyErr :=
  match fs.current with
  | none => (fs, none)
  | some (i, f) =>
    let r := feedInds fs.heap i tick c.marketOpen fs.indicators (f.track tick)
    ({ fs with heap := fs.heap.set i r.1 }, r.2)

/-- `FrameSet.on_new_tick` (frame_set.py:262-279, 167-171): the state afterwards and the exception, if any. -/
def FrameSet.feed (fs : FrameSet) (c : Ctx) (tick : Tick) : FrameSet × Option PyErr :=
  if fs.unit = .tick then
    if fs.overTick c tick then fs.feedCreate c tick tick.dt.wall none
    else fs.feedLast c tick
  else
    match fs.overTimed tick with
    | .error e => (fs, some e)
    | .ok over => if over then fs.feedTimed c tick else fs.feedLast c tick

/-- `FrameSet.__getitem__` (frame_set.py:281-286). -/
def FrameSet.getItem (fs : FrameSet) (k : ℤ) : Option Frame :=
  (pyGet fs.frames k).bind (fun i => fs.heap[i]?)

/-- `FrameSet.add_indicator` (frame_set.py:189-191) with `set_frame_set`
(base_indicator.py:153-154, rsi.py:129-135): the new state and the exception raised, if any. -/
def FrameSet.addIndicator (fs : FrameSet) (ind : Indicator) : FrameSet × Option PyErr :=
  match ind.kind with
  | .rsi p _ =>
    let n := p * fs.qty
    let ind := { ind with kind := .rsi p (some n) }
    ({ fs with indicators := fs.indicators.set ind.ref ind },
      if fs.maxFrames < n then some .indicator else none)
  | _ => ({ fs with indicators := fs.indicators.set ind.ref ind }, none)

end

end Estrade
