import Verif.Frame

/-!
# Tick objects whose quotes are assigned (estrade/tick.py:75-105, estrade/graph/frame_set.py)

`tick.bid = v` and `tick.ask = v` are public.  A frame keeps references to tick objects (`first_tick`, `high_tick`,
`low_tick`, `last_tick`, frame_set.py:60-65), so an assignment made after the tick was fed shows in the frame.  `Frame` copies
ticks; here the objects have an identity.  One frame set without indicators; the links between frames are those of `Frame`.
All the tick objects of the program exist from the start: creating one has no effect on anything else.
-/

set_option autoImplicit false

namespace Estrade

/-- What a frame shows (frame_set.py:56-67), its ticks being of type `α`: ticks, or names of tick objects. -/
structure Snap (α : Type) where
  start : ℤ
  stop : Option ℤ
  nb : ℕ
  first : α
  high : α
  low : α
  last : α
  deriving DecidableEq

/-- The same frame with each tick replaced. -/
def Snap.map {α β : Type} (g : α → β) (f : Snap α) : Snap β :=
  ⟨f.start, f.stop, f.nb, g f.first, g f.high, g f.low, g f.last⟩

/-- What a frame of `Frame.lean` shows. -/
def Frame.snap (f : Frame) : Snap Tick := ⟨f.periodStart, f.periodEnd, f.nbTicks, f.first, f.high, f.low, f.last⟩

/-- The tick objects of a program and a frame set whose frames refer to them. -/
structure ObjSet where
  obj : ℕ → Tick
  unit : Unit'
  qty : ℤ
  maxFrames : ℤ
  frames : List (Snap ℕ)

/-- What a program does with tick objects. -/
inductive QuoteCmd
  /-- `ticks[i].bid = v` -/
  | bid (i : ℕ) (v : PyVal)
  /-- `ticks[i].ask = v` -/
  | ask (i : ℕ) (v : PyVal)
  /-- `frame_set.on_new_tick(ticks[i])` -/
  | feed (c : Ctx) (i : ℕ)

section
variable [Arith]

/-- The fields of a new frame (frame_set.py:56-67). -/
def Snap.fresh (i : ℕ) (ps : ℤ) (pe : Option ℤ) : Snap ℕ := ⟨ps, pe, 1, i, i, i, i⟩

/-- `Frame.on_new_tick` (frame_set.py:114-121): `value` is read from the objects as they are now. -/
def Snap.track (obj : ℕ → Tick) (f : Snap ℕ) (i : ℕ) : Snap ℕ :=
  let f := { f with nb := f.nb + 1, last := i }
  if (obj f.high).value < (obj i).value then { f with high := i }
  else if (obj i).value < (obj f.low).value then { f with low := i }
  else f

/-- `FrameSet.clean_old_frames` (frame_set.py:193-200). -/
def cleanSnaps (max : ℤ) : List (Snap ℕ) → List (Snap ℕ) × Option PyErr
  | [] => ([], if max < 0 then some .index else none)
  | [a] => ([a], if max < 1 then some .index else none)
  | a :: b :: rest =>
    if max < ((a :: b :: rest).length : ℤ) then cleanSnaps max (b :: rest) else (a :: b :: rest, none)

/-- `FrameSet.create_new_frame` (frame_set.py:202-219). -/
def ObjSet.create (s : ObjSet) (i : ℕ) (ps : ℤ) (pe : Option ℤ) : ObjSet × Option PyErr :=
  let r := cleanSnaps s.maxFrames (s.frames ++ [Snap.fresh i ps pe])
  ({ s with frames := r.1 }, r.2)

/-- The gap filling loop (frame_set.py:224-230). -/
def ObjSet.fill (c : Ctx) (ps : ℤ) : ℕ → ObjSet → ObjSet × Option PyErr
  | fuel, s =>
    match s.frames.getLast? with
    | none => (s, none)
    | some f =>
      match f.stop with
      | none => (s, some .attr)
      | some pe =>
        if pe < ps then
          match fuel with
          | 0 => (s, some .diverge)
          | fuel + 1 =>
            match s.create f.last pe (some (frameEnd c.zone s.unit s.qty pe)) with
            | (s', none) => ObjSet.fill c ps fuel s'
            | (s', some e) => (s', some e)
        else (s, none)

/-- Number of iterations allowed to the loop, as in `fillFuel`. -/
def ObjSet.fuel (s : ObjSet) (ps : ℤ) : ℕ :=
  match s.frames.getLast? with
  | none => 0
  | some f => match f.stop with
    | none => 0
    | some pe => (ps - pe).toNat

/-- `FrameSet._create_new_frame_timed` (frame_set.py:221-232). -/
def ObjSet.timed (s : ObjSet) (c : Ctx) (i : ℕ) : ObjSet × Option PyErr :=
  match frameStart s.unit s.qty (s.obj i).dt.wall with
  | .error e => (s, some e)
  | .ok ps =>
    match s.fill c ps (s.fuel ps) with
    | (s', none) => s'.create i ps (some (frameEnd c.zone s.unit s.qty ps))
    | (s', some e) => (s', some e)

/-- `FrameSet.add_tick_to_last` (frame_set.py:258-260, 103-123). -/
def ObjSet.addLast (s : ObjSet) (i : ℕ) : ObjSet × Option PyErr :=
  match s.frames.getLast? with
  | none => (s, none)
  | some f => ({ s with frames := s.frames.dropLast ++ [f.track s.obj i] }, none)

/-- `FrameSet.is_frame_over_tick` (frame_set.py:248-256). -/
def ObjSet.overTick (s : ObjSet) (c : Ctx) (i : ℕ) : Bool :=
  match s.frames.getLast? with
  | none => true
  | some f =>
    decide (s.qty ≤ (f.nb : ℤ)) ||
    match c.epic with
    | none => true
    | some (_, lastDate) => decide (lastDate < ordOf (s.obj i).dt.wall)

/-- `FrameSet.is_frame_over_timed` (frame_set.py:243-246). -/
def ObjSet.overTimed (s : ObjSet) (i : ℕ) : Except PyErr Bool :=
  match s.frames.getLast? with
  | none => .ok true
  | some f => match f.stop with
    | none => .error .attr
    | some pe => .ok (decide (pe ≤ (s.obj i).dt.wall))

/-- `FrameSet.on_new_tick` (frame_set.py:262-279, 167-171). -/
def ObjSet.feed (s : ObjSet) (c : Ctx) (i : ℕ) : ObjSet × Option PyErr :=
  if s.unit = .tick then
    if s.overTick c i then s.create i (s.obj i).dt.wall none
    else s.addLast i
  else
    match s.overTimed i with
    | .error e => (s, some e)
    | .ok over => if over then s.timed c i else s.addLast i

/-- `Tick.ask` setter on an existing tick (tick.py:85-89): no order check. -/
def Tick.setAsk (t : Tick) (v : PyVal) : Except PyErr Tick := do
  let a ← v.toFloat
  .ok { t with ask := a }

/-- The object `i` after an assignment that may raise. -/
def ObjSet.put (s : ObjSet) (i : ℕ) : Except PyErr Tick → ObjSet × Option PyErr
  | .ok t => ({ s with obj := fun j => if j = i then t else s.obj j }, none)
  | .error e => (s, some e)

/-- Execution of a command. -/
def ObjSet.exec (s : ObjSet) : QuoteCmd → ObjSet × Option PyErr
  | .bid i v => s.put i ((s.obj i).setBid v)
  | .ask i v => s.put i ((s.obj i).setAsk v)
  | .feed c i => s.feed c i

/-- A run; exceptions are caught by the caller. -/
def ObjSet.run (s : ObjSet) (l : List QuoteCmd) : ObjSet := l.foldl (fun s c => (s.exec c).1) s

end
end Estrade
