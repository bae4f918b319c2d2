import Verif.Lemmas.Mapping

/-!
# Frame sets without their counts of ticks

`frame.nb_ticks` is read only by frame sets that count ticks (frame_set.py:248-256): two frame sets of time units that differ in
these counts stay so.
-/

set_option linter.unusedSectionVars false
set_option autoImplicit false

namespace Estrade

/-- Spec: the frame without its count of ticks. -/
def Spec.uncountedFrame (f : Frame) : Frame := { f with nbTicks := 1 }

/-- Spec: the frame set without the counts of ticks of its frames. -/
def Spec.uncounted (fs : FrameSet) : FrameSet := { fs with heap := fs.heap.map Spec.uncountedFrame }

section
variable [Arith]

local notation "U" => Spec.uncountedFrame

/-! ## Frames and indicator values -/

theorem uncounted_get (f : Frame) (ref : String) : (U f).get ref = f.get ref := rfl

theorem uncounted_prevValue (heap : List Frame) (ref : String) (n : ℕ) : ∀ i : Option ℕ,
    prevValue (heap.map U) ref n i = prevValue heap ref n i := by
  induction n with
  | zero => intro i; rfl
  | succ n ih =>
    intro i
    rcases i with _ | i
    · rfl
    · unfold prevValue
      rw [List.getElem?_map]
      rcases heap[i]? with _ | f
      · rfl
      · simp only [Option.map_some]
        rw [uncounted_get]
        rcases f.get ref with _ | v
        · exact ih f.prev
        · rfl

theorem uncounted_extendedChanges (heap : List Frame) (v : IndVal) (f : Frame) :
    extendedChanges (heap.map U) v (U f) = extendedChanges heap v f := by
  unfold extendedChanges
  have hp : (U f).prev = f.prev := rfl
  rw [hp]
  rcases f.prev with _ | p
  · rfl
  · simp only
    rw [List.getElem?_map]
    rcases heap[p]? with _ | g <;> rfl

theorem uncounted_prevCloses (heap : List Frame) (p : IndVal) : prevCloses (heap.map U) p = prevCloses heap p := by
  unfold prevCloses
  rw [List.getElem?_map]
  rcases p.ind.kind <;> try rfl
  rcases heap[p.frame]? with _ | g <;> rfl

theorem uncounted_prevChanges (heap : List Frame) (p : IndVal) : prevChanges (heap.map U) p = prevChanges heap p := by
  unfold prevChanges
  rw [List.getElem?_map]
  rcases p.ind.kind <;> try rfl
  rcases heap[p.frame]? with _ | g
  · rfl
  · simp only [Option.map_some]
    rw [uncounted_extendedChanges]

theorem uncounted_updateRsi (heap : List Frame) (f : Frame) (n : ℤ) (v : IndVal) :
    updateRsi (heap.map U) (U f) n v = updateRsi heap f n v := by
  unfold updateRsi
  rw [uncounted_extendedChanges]

theorem uncounted_newVal (heap : List Frame) (ind : Indicator) (id : ℕ) (f : Frame) :
    IndVal.new (heap.map U) ind id (U f) = IndVal.new heap ind id f := by
  unfold IndVal.new
  have hb : IndVal.base ind id (U f) = IndVal.base ind id f := rfl
  have hp : (U f).prev = f.prev := rfl
  have hl : (heap.map U).length = heap.length := List.length_map _
  rw [hb, hp, hl, uncounted_prevValue]
  simp only [uncounted_updateRsi]
  rcases ind.kind with _ | _ | _ | _ | _ | mp | ⟨q, rp⟩ <;> try rfl
  · simp only
    rcases prevValue heap ind.ref heap.length f.prev with _ | p
    · rfl
    · simp only
      rw [uncounted_prevCloses]
  · rcases rp with _ | n
    · rfl
    · simp only
      rcases prevValue heap ind.ref heap.length f.prev with _ | p
      · rfl
      · simp only
        rw [uncounted_prevChanges]

theorem uncounted_build (heap : List Frame) (ind : Indicator) (id : ℕ) (f : Frame) (mo : Bool) :
    ind.build (heap.map U) id (U f) mo = ind.build heap id f mo := by
  unfold Indicator.build
  rw [uncounted_newVal]

theorem uncounted_valTick (heap : List Frame) (f : Frame) (v : IndVal) (tick : Tick) (mo : Bool) :
    v.onNewTick (heap.map U) (U f) tick mo = v.onNewTick heap f tick mo := by
  unfold IndVal.onNewTick
  rcases v.ind.kind with _ | _ | _ | _ | _ | _ | ⟨q, _ | n⟩ <;> try rfl
  exact uncounted_updateRsi heap f n _

theorem uncounted_trackFrame (f : Frame) (tick : Tick) : U ((U f).track tick) = U (f.track tick) := by
  unfold Frame.track
  have h1 : (U f).high = f.high := rfl
  have h2 : (U f).low = f.low := rfl
  simp only [h1, h2]
  split_ifs <;> rfl

theorem uncounted_upsertOne (heap : List Frame) (id : ℕ) (tick : Tick) (mo : Bool) (f : Frame) (p : String × Indicator) :
    upsertOne (heap.map U) id tick mo (U f) p = (upsertOne heap id tick mo f p).map U := by
  unfold upsertOne
  rw [uncounted_get]
  rcases f.get p.1 with _ | v
  · simp only
    rw [uncounted_build]
    rcases p.2.build heap id f mo with e | nv <;> rfl
  · simp only
    rw [uncounted_valTick]
    rcases v.onNewTick heap f tick mo with e | v' <;> rfl

theorem uncounted_upsert (heap : List Frame) (id : ℕ) (tick : Tick) (mo : Bool) (d : Dict Indicator) : ∀ f : Frame,
    upsert (heap.map U) id tick mo d (U f) = (upsert heap id tick mo d f).map U := by
  induction d with
  | nil => intro f; rfl
  | cons p d ih =>
    intro f
    unfold upsert at ih ⊢
    simp only [List.foldlM_cons]
    rw [uncounted_upsertOne]
    rcases upsertOne heap id tick mo f p with e | f'
    · rfl
    · exact ih f'

theorem uncounted_feedOne (heap : List Frame) (id : ℕ) (tick : Tick) (mo : Bool) (f : Frame) (p : String × Indicator) :
    feedOne (heap.map U) id tick mo (U f) p = (U (feedOne heap id tick mo f p).1, (feedOne heap id tick mo f p).2) := by
  unfold feedOne
  rw [uncounted_get]
  rcases f.get p.1 with _ | v
  · simp only
    rw [uncounted_build]
    rcases p.2.build heap id f mo with e | nv <;> rfl
  · simp only
    rw [uncounted_valTick]
    rcases v.onNewTick heap f tick mo with e | v' <;> rfl

theorem uncounted_feedInds (heap : List Frame) (id : ℕ) (tick : Tick) (mo : Bool) (d : Dict Indicator) : ∀ f : Frame,
    feedInds (heap.map U) id tick mo d (U f) = (U (feedInds heap id tick mo d f).1, (feedInds heap id tick mo d f).2) := by
  induction d with
  | nil => intro f; rfl
  | cons p d ih =>
    intro f
    unfold feedInds
    rw [uncounted_feedOne]
    rcases feedOne heap id tick mo f p with ⟨f', _ | e⟩
    · exact ih f'
    · rfl

theorem uncounted_feedClean (max : ℤ) (l : List ℕ) : ∀ heap : List Frame,
    feedClean max (heap.map U) l = (((feedClean max heap l).1.1.map U, (feedClean max heap l).1.2), (feedClean max heap l).2) := by
  induction l with
  | nil => intro heap; rfl
  | cons a l ih =>
    intro heap
    rcases l with _ | ⟨d, rest⟩
    · rfl
    · unfold feedClean
      simp only
      split_ifs
      · rw [map_modify_comm U (fun f => { f with prev := none }) _ (fun f => rfl),
          map_modify_comm U (fun f => { f with next := none }) _ (fun f => rfl)]
        exact ih _
      · rfl

theorem uncounted_linkNext (heap : List Frame) (cur : Option ℕ) (id : ℕ) :
    linkNext (heap.map U) cur id = (linkNext heap cur id).map U := by
  unfold linkNext
  rcases cur with _ | i
  · rfl
  · exact map_modify_comm U (fun f => { f with next := some id }) _ (fun f => rfl) heap i

/-! ## Frame sets -/

/-- Spec: outcome of a call on a frame set without counts. -/
def Spec.uncountedFed (r : FrameSet × Option PyErr) : FrameSet × Option PyErr := (Spec.uncounted r.1, r.2)

theorem uncounted_feedCreate (fs : FrameSet) (x : Ctx) (tick : Tick) (ps : ℤ) (pe : Option ℤ) :
    (Spec.uncounted fs).feedCreate x tick ps pe = Spec.uncountedFed (fs.feedCreate x tick ps pe) := by
  unfold FrameSet.feedCreate
  have hh : (Spec.uncounted fs).heap = fs.heap.map U := rfl
  have hl : (fs.heap.map U).length = fs.heap.length := List.length_map _
  have hf : (Spec.uncounted fs).frames = fs.frames := rfl
  have hi : (Spec.uncounted fs).indicators = fs.indicators := rfl
  have hm : (Spec.uncounted fs).maxFrames = fs.maxFrames := rfl
  have hn : Frame.fresh tick ps pe fs.frames.getLast? = U (Frame.fresh tick ps pe fs.frames.getLast?) := rfl
  simp only [hh, hl, hf, hi, hm]
  rw [hn, uncounted_upsert, ← hn]
  rcases upsert fs.heap fs.heap.length tick x.marketOpen fs.indicators (Frame.fresh tick ps pe fs.frames.getLast?)
    with e | f
  · rfl
  · simp only [Except.map]
    have happ : linkNext (fs.heap.map U) fs.frames.getLast? fs.heap.length ++ [U f] =
        (linkNext fs.heap fs.frames.getLast? fs.heap.length ++ [f]).map U := by
      rw [uncounted_linkNext, List.map_append]; rfl
    rw [happ, uncounted_feedClean]
    rfl

theorem uncounted_current (fs : FrameSet) : (Spec.uncounted fs).current = fs.current.map (fun p => (p.1, U p.2)) := by
  unfold FrameSet.current
  have hh : (Spec.uncounted fs).heap = fs.heap.map U := rfl
  have hf : (Spec.uncounted fs).frames = fs.frames := rfl
  rw [hh, hf]
  rcases fs.frames.getLast? with _ | i
  · rfl
  · simp only
    rw [List.getElem?_map]
    rcases fs.heap[i]? with _ | f <;> rfl

theorem uncounted_feedFill (x : Ctx) (ps : ℤ) (n : ℕ) : ∀ fs : FrameSet,
    feedFill x ps n (Spec.uncounted fs) = Spec.uncountedFed (feedFill x ps n fs) := by
  induction n with
  | zero =>
    intro fs
    unfold feedFill
    rw [uncounted_current]
    rcases fs.current with _ | ⟨i, f⟩
    · rfl
    · have hp : (U f).periodEnd = f.periodEnd := rfl
      simp only [Option.map_some, hp]
      rcases f.periodEnd with _ | pe
      · rfl
      · simp only
        split_ifs <;> rfl
  | succ n ih =>
    intro fs
    unfold feedFill
    rw [uncounted_current]
    rcases fs.current with _ | ⟨i, f⟩
    · rfl
    · have hp : (U f).periodEnd = f.periodEnd := rfl
      have hl : (U f).last = f.last := rfl
      have hu : (Spec.uncounted fs).unit = fs.unit := rfl
      have hq : (Spec.uncounted fs).qty = fs.qty := rfl
      simp only [Option.map_some, hp, hl, hu, hq]
      rcases f.periodEnd with _ | pe
      · rfl
      · simp only
        rw [uncounted_feedCreate]
        rcases fs.feedCreate x f.last pe (some (frameEnd x.zone fs.unit fs.qty pe)) with ⟨fs', _ | e⟩
        · simp only [Spec.uncountedFed]
          split_ifs
          · exact ih fs'
          · rfl
        · simp only [Spec.uncountedFed]
          split_ifs <;> rfl

theorem uncounted_feedTimed (fs : FrameSet) (x : Ctx) (tick : Tick) :
    (Spec.uncounted fs).feedTimed x tick = Spec.uncountedFed (fs.feedTimed x tick) := by
  unfold FrameSet.feedTimed
  have hu : (Spec.uncounted fs).unit = fs.unit := rfl
  have hq : (Spec.uncounted fs).qty = fs.qty := rfl
  rw [hu, hq]
  rcases frameStart fs.unit fs.qty tick.dt.wall with e | ps
  · rfl
  · have hfuel : fillFuel (Spec.uncounted fs) ps = fillFuel fs ps := by
      unfold fillFuel
      rw [uncounted_current]
      rcases fs.current with _ | ⟨i, f⟩ <;> rfl
    simp only
    rw [hfuel, uncounted_feedFill]
    rcases feedFill x ps (fillFuel fs ps) fs with ⟨fs', _ | e⟩
    · exact uncounted_feedCreate fs' x tick ps _
    · rfl

theorem uncounted_feedLast (fs : FrameSet) (x : Ctx) (tick : Tick) :
    Spec.uncountedFed ((Spec.uncounted fs).feedLast x tick) = Spec.uncountedFed (fs.feedLast x tick) := by
  unfold FrameSet.feedLast
  rw [uncounted_current]
  rcases fs.current with _ | ⟨i, f⟩
  · simp only [Option.map_none, Spec.uncountedFed, Spec.uncounted, List.map_map]
    rfl
  · simp only [Option.map_some]
    have hh : (Spec.uncounted fs).heap = fs.heap.map U := rfl
    have hi : (Spec.uncounted fs).indicators = fs.indicators := rfl
    rw [hh, hi]
    have hmm : (fs.heap.map U).map U = fs.heap.map U := by rw [List.map_map]; rfl
    have h1 := uncounted_feedInds (fs.heap.map U) i tick x.marketOpen fs.indicators ((U f).track tick)
    have h2 := uncounted_feedInds fs.heap i tick x.marketOpen fs.indicators (f.track tick)
    rw [hmm, uncounted_trackFrame, h2] at h1
    have h3 := congrArg Prod.fst h1
    have h4 := congrArg Prod.snd h1
    simp only at h3 h4
    unfold Spec.uncountedFed Spec.uncounted
    simp only [List.map_set, hmm, h3, h4]

/-- A frame set of a time unit does not read counts of ticks. -/
theorem uncounted_feed (fs : FrameSet) (hu : fs.unit ≠ .tick) (x : Ctx) (tick : Tick) :
    Spec.uncountedFed ((Spec.uncounted fs).feed x tick) = Spec.uncountedFed (fs.feed x tick) := by
  have hidem : ∀ r, Spec.uncountedFed (Spec.uncountedFed r) = Spec.uncountedFed r := by
    rintro ⟨gs, e⟩
    unfold Spec.uncountedFed Spec.uncounted
    simp only [List.map_map]
    rfl
  unfold FrameSet.feed
  have hu' : (Spec.uncounted fs).unit = fs.unit := rfl
  have ho : (Spec.uncounted fs).overTimed tick = fs.overTimed tick := by
    unfold FrameSet.overTimed
    rw [uncounted_current]
    rcases fs.current with _ | ⟨i, f⟩ <;> rfl
  rw [hu', if_neg hu, if_neg hu, ho]
  rcases fs.overTimed tick with e | _ | _
  · exact hidem (fs, some e)
  · exact uncounted_feedLast fs x tick
  · simp only [if_true]
    rw [uncounted_feedTimed, hidem]

/-- Frame sets equal up to counts of ticks stay so. -/
theorem feed_recount {fs gs : FrameSet} (h : Spec.uncounted fs = Spec.uncounted gs) (hu : fs.unit ≠ .tick) (x : Ctx) (tick : Tick) :
    Spec.uncounted (fs.feed x tick).1 = Spec.uncounted (gs.feed x tick).1 ∧ (fs.feed x tick).2 = (gs.feed x tick).2 := by
  have hu' : gs.unit ≠ .tick := by
    have : (Spec.uncounted fs).unit = (Spec.uncounted gs).unit := by rw [h]
    exact fun hg => hu (this.trans hg)
  have h1 := uncounted_feed fs hu x tick
  rw [h, uncounted_feed gs hu'] at h1
  exact ⟨(congrArg Prod.fst h1).symm, (congrArg Prod.snd h1).symm⟩

end
end Estrade
