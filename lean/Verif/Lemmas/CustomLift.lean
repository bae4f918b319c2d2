import Verif.Lemmas.Custom

/-!
# The indicators of the library, as classes of a user
-/

set_option autoImplicit false
set_option linter.unusedSectionVars false

namespace Estrade

/-- A frame, its values seen as objects of arbitrary classes. -/
def Frame.lift (f : Frame) : UFrame IndVal :=
  ⟨f.periodStart, f.periodEnd, f.prev, f.next, f.nbTicks, f.first, f.high, f.low, f.last, f.inds⟩

def UFrame.lower (f : UFrame IndVal) : Frame :=
  ⟨f.periodStart, f.periodEnd, f.prev, f.next, f.nbTicks, f.first, f.high, f.low, f.last, f.vals⟩

theorem lower_lift (f : Frame) : f.lift.lower = f := rfl
theorem lift_lower (f : UFrame IndVal) : f.lower.lift = f := rfl

section
variable [Arith]

/-- `build_value_from_frame` of an indicator of the library. -/
def Indicator.user (ind : Indicator) : UInd IndVal := ⟨ind.ref, fun heap id f mo => ind.build (heap.map UFrame.lower) id f.lower mo⟩

/-- `on_new_tick` of the values of the library; they have neither `__bool__` nor `__len__`. -/
def Methods.library : Methods IndVal :=
  ⟨fun heap f v t mo => match v.onNewTick (heap.map UFrame.lower) f.lower t mo with
    | .ok v' => (v', none)
    | .error e => (v.track t mo, some e), fun _ => true⟩

def FrameSet.lift (fs : FrameSet) : UFrameSet IndVal :=
  ⟨fs.unit, fs.qty, fs.maxFrames, fs.heap.map Frame.lift, fs.frames, fs.indicators.map (fun p => (p.1, p.2.user))⟩

theorem map_lower_lift (heap : List Frame) : (heap.map Frame.lift).map UFrame.lower = heap := by
  rw [List.map_map]
  exact List.map_id heap

theorem feedOne_lift (heap : List Frame) (id : ℕ) (t : Tick) (mo : Bool) (f : Frame) (p : String × Indicator) :
    ufeedOne Methods.library (heap.map Frame.lift) id t mo f.lift (p.1, p.2.user) =
      ((feedOne heap id t mo f p).1.lift, (feedOne heap id t mo f p).2) := by
  unfold ufeedOne feedOne
  dsimp only [Indicator.user]
  rw [map_lower_lift, lower_lift, show f.lift.get p.1 = f.get p.1 from rfl]
  rcases f.get p.1 with _ | v
  · dsimp only
    rcases p.2.build heap id f mo with e | nv <;> rfl
  · dsimp only
    rw [if_pos (show Methods.library.truth v = true from rfl)]
    dsimp only [Methods.library]
    rw [map_lower_lift, lower_lift]
    rcases v.onNewTick heap f t mo with e | v' <;> rfl

theorem feedInds_lift (heap : List Frame) (id : ℕ) (t : Tick) (mo : Bool) (inds : Dict Indicator) : ∀ f : Frame,
    ufeedInds Methods.library (heap.map Frame.lift) id t mo (inds.map (fun p => (p.1, p.2.user))) f.lift =
      ((feedInds heap id t mo inds f).1.lift, (feedInds heap id t mo inds f).2) := by
  induction inds with
  | nil => intro f; rfl
  | cons p rest ih =>
    intro f
    rw [List.map_cons]
    unfold ufeedInds feedInds
    rw [feedOne_lift]
    rcases feedOne heap id t mo f p with ⟨f', _ | e⟩
    · exact ih f'
    · rfl

theorem map_modify_lift (heap : List Frame) (i : ℕ) (g : Frame → Frame) (g' : UFrame IndVal → UFrame IndVal) (h : ∀ f : Frame, (g f).lift = g' f.lift) :
    (heap.modify i g).map Frame.lift = (heap.map Frame.lift).modify i g' := by
  apply List.ext_getElem?
  intro j
  rw [List.getElem?_map, List.getElem?_modify, List.getElem?_modify, List.getElem?_map]
  rcases heap[j]? with _ | f
  · rfl
  · by_cases hij : i = j
    · simp [hij, h]
    · simp [hij]

theorem feedClean_lift (max : ℤ) (l : List ℕ) : ∀ heap : List Frame,
    ufeedClean max (heap.map Frame.lift) l = (((feedClean max heap l).1.1.map Frame.lift, (feedClean max heap l).1.2), (feedClean max heap l).2) := by
  induction l with
  | nil => intro heap; rfl
  | cons a l ih =>
    intro heap
    rcases l with _ | ⟨b, rest⟩
    · rfl
    · unfold feedClean ufeedClean
      split_ifs with h
      · dsimp only
        rw [← ih, map_modify_lift _ a (fun f => { f with next := none }) (fun f => { f with next := none }) (by intro f; rfl),
          map_modify_lift _ b (fun f => { f with prev := none }) (fun f => { f with prev := none }) (by intro f; rfl)]
      · rfl

theorem linkNext_lift (heap : List Frame) (cur : Option ℕ) (id : ℕ) :
    (linkNext heap cur id).map Frame.lift = ulinkNext (heap.map Frame.lift) cur id := by
  unfold ulinkNext linkNext
  rcases cur with _ | i
  · rfl
  · exact map_modify_lift heap i _ _ (by intro f; rfl)

theorem current_lift (fs : FrameSet) : fs.lift.current = fs.current.map (fun p => (p.1, p.2.lift)) := by
  unfold FrameSet.current UFrameSet.current
  show (match fs.frames.getLast? with | none => none | some i => ((fs.heap.map Frame.lift)[i]?).map (fun f => (i, f))) = _
  rcases fs.frames.getLast? with _ | i
  · rfl
  · dsimp only
    rw [List.getElem?_map, Option.map_map, Option.map_map]; rfl

theorem upsert_feedInds (heap : List Frame) (id : ℕ) (t : Tick) (mo : Bool) (inds : Dict Indicator) (f : Frame) :
    upsert heap id t mo inds f = match (feedInds heap id t mo inds f).2 with
      | none => .ok (feedInds heap id t mo inds f).1
      | some e => .error e := by
  have h := feedInds_agrees heap id t mo inds f
  rcases he : (feedInds heap id t mo inds f).2 with _ | e
  · exact h.ok he
  · exact h.error he

theorem feedCreate_lift (fs : FrameSet) (c : Ctx) (t : Tick) (ps : ℤ) (pe : Option ℤ) :
    fs.lift.feedCreate Methods.library c t ps pe = ((fs.feedCreate c t ps pe).1.lift, (fs.feedCreate c t ps pe).2) := by
  unfold UFrameSet.feedCreate FrameSet.feedCreate
  dsimp only
  rw [show fs.lift.heap = fs.heap.map Frame.lift from rfl, List.length_map, show fs.lift.frames = fs.frames from rfl,
    show (UFrame.fresh t ps pe fs.frames.getLast? : UFrame IndVal) = (Frame.fresh t ps pe fs.frames.getLast?).lift from rfl,
    show fs.lift.indicators = fs.indicators.map (fun p => (p.1, p.2.user)) from rfl, feedInds_lift, upsert_feedInds]
  rcases feedInds fs.heap fs.heap.length t c.marketOpen fs.indicators (Frame.fresh t ps pe fs.frames.getLast?) with ⟨f, _ | e⟩
  · dsimp only
    rw [← linkNext_lift, show [f.lift] = [f].map Frame.lift from rfl, ← List.map_append, show fs.lift.maxFrames = fs.maxFrames from rfl,
      feedClean_lift]
    rfl
  · rfl

theorem feedFill_lift (c : Ctx) (ps : ℤ) (fuel : ℕ) : ∀ fs : FrameSet,
    ufeedFill Methods.library c ps fuel fs.lift = ((feedFill c ps fuel fs).1.lift, (feedFill c ps fuel fs).2) := by
  induction fuel with
  | zero =>
    intro fs
    unfold feedFill ufeedFill
    rw [current_lift]
    rcases fs.current with _ | ⟨i, f⟩
    · rfl
    · dsimp only [Option.map]
      rw [show f.lift.periodEnd = f.periodEnd from rfl]
      rcases f.periodEnd with _ | pe
      · rfl
      · dsimp only
        split_ifs <;> rfl
  | succ fuel ih =>
    intro fs
    unfold feedFill ufeedFill
    rw [current_lift]
    rcases fs.current with _ | ⟨i, f⟩
    · rfl
    · dsimp only [Option.map]
      rw [show f.lift.periodEnd = f.periodEnd from rfl]
      rcases f.periodEnd with _ | pe
      · rfl
      · dsimp only
        split_ifs with hlt
        · rw [show fs.lift.unit = fs.unit from rfl, show fs.lift.qty = fs.qty from rfl, show f.lift.last = f.last from rfl, feedCreate_lift]
          rcases fs.feedCreate c f.last pe (some (frameEnd c.zone fs.unit fs.qty pe)) with ⟨fs', _ | e⟩
          · exact ih fs'
          · rfl
        · rfl

theorem fillFuel_lift (fs : FrameSet) (ps : ℤ) : ufillFuel fs.lift ps = fillFuel fs ps := by
  unfold fillFuel ufillFuel
  rw [current_lift]
  rcases fs.current with _ | ⟨i, f⟩ <;> rfl

theorem feedTimed_lift (fs : FrameSet) (c : Ctx) (t : Tick) :
    fs.lift.feedTimed Methods.library c t = ((fs.feedTimed c t).1.lift, (fs.feedTimed c t).2) := by
  unfold FrameSet.feedTimed UFrameSet.feedTimed
  rw [show fs.lift.unit = fs.unit from rfl, show fs.lift.qty = fs.qty from rfl]
  rcases frameStart fs.unit fs.qty t.dt.wall with e | ps
  · rfl
  · dsimp only
    rw [fillFuel_lift, feedFill_lift]
    rcases feedFill c ps (fillFuel fs ps) fs with ⟨fs', _ | e⟩
    · exact feedCreate_lift fs' c t _ _
    · rfl

theorem track_lift (f : Frame) (t : Tick) : (f.track t).lift = f.lift.track t := by
  unfold UFrame.track Frame.track
  dsimp only [Frame.lift]
  split_ifs <;> rfl

theorem feedLast_lift (fs : FrameSet) (c : Ctx) (t : Tick) :
    fs.lift.feedLast Methods.library c t = ((fs.feedLast c t).1.lift, (fs.feedLast c t).2) := by
  unfold FrameSet.feedLast UFrameSet.feedLast
  rw [current_lift]
  rcases fs.current with _ | ⟨i, f⟩
  · rfl
  · dsimp only [Option.map]
    rw [← track_lift, show fs.lift.heap = fs.heap.map Frame.lift from rfl,
      show fs.lift.indicators = fs.indicators.map (fun p => (p.1, p.2.user)) from rfl, feedInds_lift]
    dsimp only
    rw [← List.map_set]
    rfl

theorem overTick_lift (fs : FrameSet) (c : Ctx) (t : Tick) : fs.lift.overTick c t = fs.overTick c t := by
  unfold FrameSet.overTick UFrameSet.overTick
  rw [current_lift]
  rcases fs.current with _ | ⟨i, f⟩ <;> rfl

theorem overTimed_lift (fs : FrameSet) (t : Tick) : fs.lift.overTimed t = fs.overTimed t := by
  unfold FrameSet.overTimed UFrameSet.overTimed
  rw [current_lift]
  rcases fs.current with _ | ⟨i, f⟩ <;> rfl

theorem feed_lift (fs : FrameSet) (c : Ctx) (t : Tick) :
    fs.lift.feed Methods.library c t = ((fs.feed c t).1.lift, (fs.feed c t).2) := by
  unfold FrameSet.feed UFrameSet.feed
  rw [show fs.lift.unit = fs.unit from rfl, overTick_lift, overTimed_lift]
  split_ifs with h1 h2
  · exact feedCreate_lift fs c t _ _
  · exact feedLast_lift fs c t
  · rcases fs.overTimed t with e | b
    · rfl
    · dsimp only
      split_ifs
      · exact feedTimed_lift fs c t
      · exact feedLast_lift fs c t

end

end Estrade
