import Verif.Frame

/-!
# Indicator objects shared between frame sets (frame_set.py:189-191, base_indicator.py:153-154, rsi.py:129-135)

`FrameSet.addIndicator` stores a copy of the indicator, as if every frame set had its own object.  Here indicators are
objects: `add_indicator` stores a reference, and `RSI.set_frame_set` writes `rsi_periods` into the object, which all frame
sets that hold it read when they start a frame (rsi.py:38-43).  The values already built keep the number they
read (`self.rsi_periods`).
-/

set_option autoImplicit false

namespace Estrade

/-- Indicator objects and frame sets, each with its `indicators` dict of references. -/
structure Bench where
  objs : List Indicator
  sets : List (FrameSet × Dict ℕ)

/-- Calls on a bench: `sets[k].add_indicator(objs[j])`, `sets[k].on_new_tick(tick)`. -/
inductive BCmd
  | add (k j : ℕ)
  | feed (k : ℕ) (c : Ctx) (t : Tick)

/-- What an object is after `indicator.set_frame_set(frame_set)` (base_indicator.py:153-154, rsi.py:129-131). -/
def Indicator.attached (ind : Indicator) (qty : ℤ) : Indicator := match ind.kind with
  | .rsi p _ => { ind with kind := .rsi p (some (p * qty)) }
  | _ => ind

/-- The exception of `set_frame_set` (rsi.py:132-135). -/
def Indicator.attachErr (ind : Indicator) (fs : FrameSet) : Option PyErr := match ind.kind with
  | .rsi p _ => if fs.maxFrames < p * fs.qty then some .indicator else none
  | _ => none

/-- The objects a dict of references stands for. -/
def resolve (objs : List Indicator) (d : Dict ℕ) : Dict Indicator :=
  d.filterMap (fun p => (objs[p.2]?).map (fun ind => (p.1, ind)))

/-- `FrameSet.add_indicator` (frame_set.py:189-191). -/
def Bench.add (b : Bench) (k j : ℕ) : Bench × Option PyErr :=
  match b.sets[k]?, b.objs[j]? with
  | some (fs, d), some ind =>
    (⟨b.objs.set j (ind.attached fs.qty), b.sets.set k (fs, d.set ind.ref j)⟩, ind.attachErr fs)
  | _, _ => (b, some .attr)

section
variable [Arith]

/-- `FrameSet.on_new_tick` (frame_set.py:262-279), the indicators read from the objects. -/
def Bench.feed (b : Bench) (k : ℕ) (c : Ctx) (t : Tick) : Bench × Option PyErr :=
  match b.sets[k]? with
  | none => (b, some .attr)
  | some (fs, d) =>
    let r := FrameSet.feed { fs with indicators := resolve b.objs d } c t
    (⟨b.objs, b.sets.set k (r.1, d)⟩, r.2)

def Bench.exec (b : Bench) : BCmd → Bench × Option PyErr
  | .add k j => b.add k j
  | .feed k c t => b.feed k c t

/-- The bench after some calls. -/
def Bench.run (b : Bench) (l : List BCmd) : Bench := l.foldl (fun b x => (b.exec x).1) b

end

end Estrade
