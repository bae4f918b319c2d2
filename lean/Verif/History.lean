import Verif.Frame

/-!
# Histories of a frame set (specification vocabulary)

`Feeds u q m fs h`: a frame set created with unit `u`, quantity `q` and memory limit `m` is in state `fs`
after having been given, successfully, the ticks of `h` in order; indicators may be registered at any
moment.  Each entry of `h` records the tick, the context of its delivery and the indicators registered then.
-/

namespace Estrade

/-- One delivered tick. -/
structure HEv where
  ctx : Ctx
  tick : Tick
  reg : Dict Indicator

variable [Arith]

/-- Life of one frame set. -/
inductive Feeds (u : Unit') (q m : ℤ) : FrameSet → List HEv → Prop
  | new : Feeds u q m ⟨u, q, m, [], [], []⟩ []
  | ind {fs h} (i : Indicator) : Feeds u q m fs h → Feeds u q m (fs.addIndicator i).1 h
  | tick {fs fs' h} (c : Ctx) (t : Tick) : Feeds u q m fs h → fs.onNewTick c t = .ok fs' →
      Feeds u q m fs' (h ++ [⟨c, t, fs.indicators⟩])

/-- The frames in memory, oldest first (`FrameSet.frames`). -/
def FrameSet.view (fs : FrameSet) : List Frame := fs.frames.filterMap (fun i => fs.heap[i]?)

/-- Spec: the ticks summarised by a frame or by an indicator value: first, earliest highest, earliest
lowest and last. -/
structure Spec.Summary (ts : List Tick) (first high low last : Tick) : Prop where
  first : ts.head? = some first
  last : ts.getLast? = some last
  high : ∃ pre post, ts = pre ++ high :: post ∧ (∀ t ∈ pre, t.value < high.value) ∧
    ∀ t ∈ post, t.value ≤ high.value
  low : ∃ pre post, ts = pre ++ low :: post ∧ (∀ t ∈ pre, low.value < t.value) ∧
    ∀ t ∈ post, low.value ≤ t.value

/-- Feeding a list of ticks (used for the concrete cases). -/
def feedAll (fs : FrameSet) : List (Ctx × Tick) → Except PyErr FrameSet
  | [] => .ok fs
  | p :: rest => match fs.onNewTick p.1 p.2 with
    | .error e => .error e
    | .ok fs' => feedAll fs' rest

theorem feeds_of_feedAll {u : Unit'} {q m : ℤ} {fs fs' : FrameSet} {h : List HEv} {l : List (Ctx × Tick)}
    (hF : Feeds u q m fs h) (hl : feedAll fs l = .ok fs') :
    ∃ h', Feeds u q m fs' (h ++ h') ∧ h'.map (fun e => (e.ctx, e.tick)) = l := by
  induction l generalizing fs h with
  | nil => cases hl; exact ⟨[], by simpa using hF, rfl⟩
  | cons p rest ih =>
    rw [feedAll] at hl
    split at hl
    · cases hl
    · rename_i fs1 h1
      obtain ⟨h', g1, g2⟩ := ih (Feeds.tick p.1 p.2 hF h1) hl
      exact ⟨⟨p.1, p.2, fs.indicators⟩ :: h', by simpa using g1, by simp [g2]⟩

end Estrade
