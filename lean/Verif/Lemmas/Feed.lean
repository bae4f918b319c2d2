import Verif.Frame

/-!
# Calls that return and calls that raise

`FrameSet.feed` (state and exception) agrees with `FrameSet.onNewTick` (state or exception).
-/

set_option autoImplicit false
set_option linter.unusedSectionVars false

namespace Estrade

variable [Arith]

/-- `r` is what a call returns whose outcome is `x`: the same exception, and the same state when there is none. -/
def Agrees {α : Type} (r : α × Option PyErr) (x : Except PyErr α) : Prop :=
  match x with
  | .ok a => r = (a, none)
  | .error e => r.2 = some e

theorem Agrees.ok {α : Type} {r : α × Option PyErr} {x : Except PyErr α} (h : Agrees r x) (hr : r.2 = none) : x = .ok r.1 := by
  unfold Agrees at h
  split at h
  · rw [h]
  · rw [hr] at h; cases h

theorem Agrees.error {α : Type} {r : α × Option PyErr} {x : Except PyErr α} (h : Agrees r x) {e : PyErr} (hr : r.2 = some e) :
    x = .error e := by
  unfold Agrees at h
  split at h
  · rw [h] at hr; cases hr
  · rw [hr] at h; injection h with h; rw [h]

theorem feedOne_agrees (heap : List Frame) (id : ℕ) (tick : Tick) (mo : Bool) (f : Frame) (p : String × Indicator) :
    Agrees (feedOne heap id tick mo f p) (upsertOne heap id tick mo f p) := by
  unfold feedOne upsertOne
  rcases f.get p.1 with _ | v
  · simp only
    rcases p.2.build heap id f mo with e | nv <;> simp [Agrees, bind, Except.bind]
  · simp only
    rcases v.onNewTick heap f tick mo with e | v' <;> simp [Agrees, bind, Except.bind]

theorem feedInds_agrees (heap : List Frame) (id : ℕ) (tick : Tick) (mo : Bool) (inds : Dict Indicator) (f : Frame) :
    Agrees (feedInds heap id tick mo inds f) (upsert heap id tick mo inds f) := by
  unfold upsert
  induction inds generalizing f with
  | nil => rfl
  | cons p rest ih =>
    rw [List.foldlM_cons]
    have h := feedOne_agrees heap id tick mo f p
    unfold feedInds
    rcases hr : feedOne heap id tick mo f p with ⟨f', e | e⟩
    · rw [hr] at h
      rw [h.ok rfl]
      exact ih f'
    · rw [hr] at h
      rw [h.error rfl]
      rfl

theorem feedClean_agrees (max : ℤ) (ids : List ℕ) (heap : List Frame) :
    Agrees (feedClean max heap ids) (cleanLoop max heap ids) := by
  induction ids generalizing heap with
  | nil => unfold feedClean cleanLoop; split_ifs <;> rfl
  | cons a l ih =>
    cases l with
    | nil => unfold feedClean cleanLoop; split_ifs <;> rfl
    | cons b rest =>
      unfold feedClean cleanLoop
      split_ifs
      · exact ih _
      · rfl

theorem feedCreate_agrees (fs : FrameSet) (c : Ctx) (tick : Tick) (ps : ℤ) (pe : Option ℤ) :
    Agrees (fs.feedCreate c tick ps pe) (fs.createFrame c tick ps pe) := by
  unfold FrameSet.feedCreate FrameSet.createFrame
  rcases hu : upsert fs.heap fs.heap.length tick c.marketOpen fs.indicators (Frame.fresh tick ps pe fs.frames.getLast?)
    with e | f
  · simp only [hu]; simp [Agrees, bind, Except.bind]
  · simp only [hu, bind, Except.bind]
    have h := feedClean_agrees fs.maxFrames (fs.frames ++ [fs.heap.length])
      (linkNext fs.heap fs.frames.getLast? fs.heap.length ++ [f])
    rcases hr : feedClean fs.maxFrames (linkNext fs.heap fs.frames.getLast? fs.heap.length ++ [f])
      (fs.frames ++ [fs.heap.length]) with ⟨x, e | e⟩
    · rw [hr] at h; rw [h.ok rfl]; rfl
    · rw [hr] at h; rw [h.error rfl]; rfl

theorem feedFill_agrees (c : Ctx) (ps : ℤ) (n : ℕ) (fs : FrameSet) :
    Agrees (feedFill c ps n fs) (fillLoop c ps n fs) := by
  induction n generalizing fs with
  | zero =>
    unfold feedFill fillLoop
    rcases fs.current with _ | ⟨i, f⟩
    · rfl
    · simp only
      rcases f.periodEnd with _ | pe
      · rfl
      · simp only; split_ifs <;> rfl
  | succ n ih =>
    unfold feedFill fillLoop
    rcases fs.current with _ | ⟨i, f⟩
    · rfl
    · simp only
      rcases f.periodEnd with _ | pe
      · rfl
      · simp only
        split_ifs
        · have h := feedCreate_agrees fs c f.last pe (some (frameEnd c.zone fs.unit fs.qty pe))
          rcases hr : fs.feedCreate c f.last pe (some (frameEnd c.zone fs.unit fs.qty pe)) with ⟨x, e | e⟩
          · rw [hr] at h; rw [h.ok rfl]; exact ih x
          · rw [hr] at h; rw [h.error rfl]; rfl
        · rfl

theorem feedTimed_agrees (fs : FrameSet) (c : Ctx) (tick : Tick) :
    Agrees (fs.feedTimed c tick) (fs.createTimed c tick) := by
  unfold FrameSet.feedTimed FrameSet.createTimed
  rcases frameStart fs.unit fs.qty tick.dt.wall with e | ps
  · rfl
  · simp only [bind, Except.bind]
    have h := feedFill_agrees c ps (fillFuel fs ps) fs
    rcases hr : feedFill c ps (fillFuel fs ps) fs with ⟨x, e | e⟩
    · rw [hr] at h; rw [h.ok rfl]; exact feedCreate_agrees x c tick ps _
    · rw [hr] at h; rw [h.error rfl]; rfl

theorem feedLast_agrees (fs : FrameSet) (c : Ctx) (tick : Tick) :
    Agrees (fs.feedLast c tick) (fs.addToLast c tick) := by
  unfold FrameSet.feedLast FrameSet.addToLast
  rcases fs.current with _ | ⟨i, f⟩
  · rfl
  · simp only [bind, Except.bind]
    have h := feedInds_agrees fs.heap i tick c.marketOpen fs.indicators (f.track tick)
    rcases hr : feedInds fs.heap i tick c.marketOpen fs.indicators (f.track tick) with ⟨x, e | e⟩
    · rw [hr] at h; rw [h.ok rfl]; rfl
    · rw [hr] at h; rw [h.error rfl]; rfl

theorem feed_agrees (fs : FrameSet) (c : Ctx) (tick : Tick) : Agrees (fs.feed c tick) (fs.onNewTick c tick) := by
  unfold FrameSet.feed FrameSet.onNewTick
  split_ifs
  · exact feedCreate_agrees _ _ _ _ _
  · exact feedLast_agrees _ _ _
  · rcases fs.overTimed tick with e | over
    · rfl
    · simp only [bind, Except.bind]
      split_ifs
      · exact feedTimed_agrees _ _ _
      · exact feedLast_agrees _ _ _

/-- A tick raises in one description iff in the other, and the states are the same when it does not. -/
theorem feed_ok {fs fs' : FrameSet} {c : Ctx} {tick : Tick} (h : fs.onNewTick c tick = .ok fs') : fs.feed c tick = (fs', none) := by
  have := feed_agrees fs c tick
  rw [h] at this
  exact this

theorem feed_error {fs : FrameSet} {e : PyErr} {c : Ctx} {tick : Tick} (h : fs.onNewTick c tick = .error e) :
    (fs.feed c tick).2 = some e := by
  have := feed_agrees fs c tick
  rw [h] at this
  exact this

theorem feed_eq (fs : FrameSet) (c : Ctx) (tick : Tick) :
    fs.onNewTick c tick = match (fs.feed c tick).2 with | none => .ok (fs.feed c tick).1 | some e => .error e := by
  have h := feed_agrees fs c tick
  split
  · rename_i hn; exact h.ok hn
  · rename_i hn; exact h.error hn

end Estrade
