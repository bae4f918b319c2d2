import Verif.Lemmas.Mapping
import Verif.Props.Weeks
import Verif.Demo

/-!
# C85: references are only names
(estrade/mixins/ref.py, estrade/epic.py, estrade/strategy.py, estrade/graph/*.py)

Two runs of a whole program, the second with other references.
-/

set_option linter.style.haveILetI false
set_option linter.unusedSectionVars false
set_option autoImplicit false

namespace Estrade

/-- Spec: other references for epics, strategies, frame sets and indicators. -/
structure Spec.Naming where
  epicRef : String → String
  stratRef : String → String
  fsetRef : String → String
  indRef : String → String

namespace Spec.Naming
variable (N : Spec.Naming)

/-- Spec: different references stay different. -/
structure Distinct : Prop where
  epic : Function.Injective N.epicRef
  strat : Function.Injective N.stratRef
  fset : Function.Injective N.fsetRef
  ind : Function.Injective N.indRef

/-- Spec: the renamed indicator. -/
def ind (i : Indicator) : Indicator := { i with ref := N.indRef i.ref }

/-- Spec: a value of the renamed indicator. -/
def val (v : IndVal) : IndVal := { v with ind := N.ind v.ind }

/-- Spec: a frame with renamed indicators. -/
def frame (f : Frame) : Frame := { f with inds := f.inds.map (fun p => (N.indRef p.1, p.2.map N.val)) }

/-- Spec: a frame set with renamed indicators. -/
def frameSet (fs : FrameSet) : FrameSet :=
  { fs with
    heap := fs.heap.map N.frame
    indicators := fs.indicators.map (fun p => (N.indRef p.1, N.ind p.2)) }

/-- Spec: the renamed epic with renamed frame sets and strategies. -/
def epic (e : Epic) : Epic :=
  { e with
    ref := N.epicRef e.ref
    frameSets := e.frameSets.map (fun p => (N.fsetRef p.1, N.frameSet p.2))
    strategies := e.strategies.map (fun p => (N.stratRef p.1, p.2)) }

/-- Spec: what corresponds in the renamed program: ticks, dates, prices and trades stay as they are. -/
def renamed : Spec.Mapping where
  tick := id
  dt := id
  dir := id
  price := id
  fset := N.frameSet
  epic := N.epic
  trade := id
  ind := N.ind
  fsetRef := N.fsetRef
  stratRef := N.stratRef
  epicRef := N.epicRef

end Spec.Naming

section
variable [Arith] {N : Spec.Naming} (hN : N.Distinct)

/-! ## Frames and indicator values -/

include hN

theorem named_get (f : Frame) (ref : String) :
    (N.frame f).get (N.indRef ref) = (f.get ref).map N.val := by
  unfold Frame.get Spec.Naming.frame
  simp only
  rw [Dict.get?_rename hN.ind]
  rcases f.inds.get? ref with _ | _ | v <;> rfl

theorem named_setInd (f : Frame) (ref : String) (v : Option IndVal) :
    { N.frame f with inds := (N.frame f).inds.set (N.indRef ref) (v.map N.val) } =
      N.frame { f with inds := f.inds.set ref v } := by
  unfold Spec.Naming.frame
  simp only
  rw [Dict.set_rename hN.ind (fun v : Option IndVal => v.map N.val)]

theorem named_prevValue (heap : List Frame) (ref : String) (n : ℕ) : ∀ i : Option ℕ,
    prevValue (heap.map N.frame) (N.indRef ref) n i = (prevValue heap ref n i).map N.val := by
  induction n with
  | zero => intro i; rfl
  | succ n ih =>
    intro i
    rcases i with _ | i
    · rfl
    · unfold prevValue
      rw [List.getElem?_map]
      rcases heap[i]? with _ | f
      · rfl
      · simp only [Option.map_some]
        rw [named_get hN]
        rcases f.get ref with _ | v
        · exact ih f.prev
        · rfl

omit hN in
theorem named_extendedCloses (v : IndVal) (f : Frame) :
    extendedCloses (N.val v) (N.frame f) = extendedCloses v f := rfl

omit hN in
theorem named_extendedChanges (heap : List Frame) (v : IndVal) (f : Frame) :
    extendedChanges (heap.map N.frame) (N.val v) (N.frame f) =
      extendedChanges heap v f := by
  unfold extendedChanges
  have hp : (N.frame f).prev = f.prev := rfl
  rw [hp]
  rcases f.prev with _ | p
  · rfl
  · simp only
    rw [List.getElem?_map]
    rcases heap[p]? with _ | g <;> rfl

omit hN in
theorem named_prevCloses (heap : List Frame) (p : IndVal) :
    prevCloses (heap.map N.frame) (N.val p) = prevCloses heap p := by
  unfold prevCloses
  have hk : (N.val p).ind.kind = p.ind.kind := rfl
  have hf : (N.val p).frame = p.frame := rfl
  rw [hk, hf, List.getElem?_map]
  rcases p.ind.kind <;> try rfl
  rcases heap[p.frame]? with _ | g
  · rfl
  · simp only [Option.map_some]
    rw [named_extendedCloses]

omit hN in
theorem named_prevChanges (heap : List Frame) (p : IndVal) :
    prevChanges (heap.map N.frame) (N.val p) = prevChanges heap p := by
  unfold prevChanges
  have hk : (N.val p).ind.kind = p.ind.kind := rfl
  have hf : (N.val p).frame = p.frame := rfl
  rw [hk, hf, List.getElem?_map]
  rcases p.ind.kind <;> try rfl
  rcases heap[p.frame]? with _ | g
  · rfl
  · simp only [Option.map_some]
    rw [named_extendedChanges]

omit hN in
theorem named_updateRsi (heap : List Frame) (f : Frame) (n : ℤ) (v : IndVal) :
    updateRsi (heap.map N.frame) (N.frame f) n (N.val v) =
      (updateRsi heap f n v).map N.val := by
  unfold updateRsi
  rw [named_extendedChanges]
  simp only
  split_ifs
  · rcases buildRsi n (extendedChanges heap v f) with e | r <;> rfl
  · rfl

theorem named_newVal (heap : List Frame) (ind : Indicator) (id : ℕ) (f : Frame) :
    IndVal.new (heap.map N.frame) (N.ind ind) id (N.frame f) =
      (IndVal.new heap ind id f).map N.val := by
  unfold IndVal.new
  have hb : IndVal.base (N.ind ind) id (N.frame f) = N.val (IndVal.base ind id f) := rfl
  have hr : (N.ind ind).ref = N.indRef ind.ref := rfl
  have hk : (N.ind ind).kind = ind.kind := rfl
  have hp : (N.frame f).prev = f.prev := rfl
  have hl : (heap.map N.frame).length = heap.length := List.length_map _
  rw [hb, hr, hk, hp, hl, named_prevValue hN]
  rcases ind.kind with _ | _ | _ | _ | _ | mp | ⟨q, rp⟩ <;> try rfl
  · simp only
    rcases prevValue heap ind.ref heap.length f.prev with _ | p
    · rfl
    · simp only [Option.map_some]
      rw [named_prevCloses]
      rcases prevCloses heap p with e | l <;> rfl
  · rcases rp with _ | n
    · rfl
    · simp only
      split_ifs
      · rfl
      · rcases prevValue heap ind.ref heap.length f.prev with _ | p
        · simp only [Option.map_none, bind, Except.bind]
          rw [← named_updateRsi]
          rfl
        · simp only [Option.map_some]
          rw [named_prevChanges]
          rcases prevChanges heap p with e | l
          · rfl
          · simp only [bind, Except.bind]
            rw [← named_updateRsi]
            rfl

theorem named_build (heap : List Frame) (ind : Indicator) (id : ℕ) (f : Frame) (mo : Bool) :
    (N.ind ind).build (heap.map N.frame) id (N.frame f) mo =
      (ind.build heap id f mo).map (Option.map N.val) := by
  unfold Indicator.build
  have hm : (N.ind ind).marketOpenOnly = ind.marketOpenOnly := rfl
  rw [hm]
  rw [named_newVal hN]
  split_ifs
  · rcases IndVal.new heap ind id f with e | v <;> rfl
  · rfl

omit hN in
theorem named_trackVal (v : IndVal) (tick : Tick) (mo : Bool) :
    (N.val v).track tick mo = N.val (v.track tick mo) := by
  unfold IndVal.track
  have h1 : (N.val v).high.value = v.high.value := rfl
  have h2 : (N.val v).low.value = v.low.value := rfl
  have hk : (N.val v).ind.kind = v.ind.kind := rfl
  have hm : (N.val v).ind.marketOpenOnly = v.ind.marketOpenOnly := rfl
  simp only [h1, h2, hm]
  split_ifs <;> rfl

omit hN in
theorem named_valTick (heap : List Frame) (f : Frame) (v : IndVal) (tick : Tick) (mo : Bool) :
    (N.val v).onNewTick (heap.map N.frame) (N.frame f) tick mo =
      (v.onNewTick heap f tick mo).map N.val := by
  unfold IndVal.onNewTick
  have hk : (N.val v).ind.kind = v.ind.kind := rfl
  have hm : (N.val v).ind.marketOpenOnly = v.ind.marketOpenOnly := rfl
  rw [hk, named_trackVal]
  rcases v.ind.kind with _ | _ | _ | _ | _ | _ | ⟨q, _ | n⟩ <;> try rfl
  exact named_updateRsi heap f n _

omit hN in
theorem named_trackFrame (f : Frame) (tick : Tick) :
    (N.frame f).track tick = N.frame (f.track tick) := by
  unfold Frame.track
  have h1 : (N.frame f).high.value = f.high.value := rfl
  have h2 : (N.frame f).low.value = f.low.value := rfl
  simp only [h1, h2]
  split_ifs <;> rfl

theorem named_upsertOne (heap : List Frame) (id : ℕ) (tick : Tick) (mo : Bool) (f : Frame) (p : String × Indicator) :
    upsertOne (heap.map N.frame) id tick mo (N.frame f) (N.indRef p.1, N.ind p.2) =
      (upsertOne heap id tick mo f p).map N.frame := by
  unfold upsertOne
  rw [named_get hN]
  rcases f.get p.1 with _ | v
  · simp only [Option.map_none]
    have hr : (N.ind p.2).ref = N.indRef p.2.ref := rfl
    rw [named_build hN, hr]
    rcases p.2.build heap id f mo with e | nv
    · rfl
    · simp only [Except.map, bind, Except.bind]
      rw [named_setInd hN]
  · simp only [Option.map_some]
    rw [named_valTick]
    rcases v.onNewTick heap f tick mo with e | v'
    · rfl
    · simp only [Except.map, bind, Except.bind]
      exact congrArg Except.ok (named_setInd hN f p.1 (some v'))

theorem named_upsert (heap : List Frame) (id : ℕ) (tick : Tick) (mo : Bool) (d : Dict Indicator) : ∀ f : Frame,
    upsert (heap.map N.frame) id tick mo (d.map (fun p => (N.indRef p.1, N.ind p.2))) (N.frame f) =
      (upsert heap id tick mo d f).map N.frame := by
  induction d with
  | nil => intro f; rfl
  | cons p d ih =>
    intro f
    unfold upsert at ih ⊢
    simp only [List.map_cons, List.foldlM_cons]
    rw [named_upsertOne hN]
    rcases upsertOne heap id tick mo f p with e | f'
    · rfl
    · exact ih f'

theorem named_feedOne (heap : List Frame) (id : ℕ) (tick : Tick) (mo : Bool) (f : Frame) (p : String × Indicator) :
    feedOne (heap.map N.frame) id tick mo (N.frame f) (N.indRef p.1, N.ind p.2) =
      (N.frame (feedOne heap id tick mo f p).1, (feedOne heap id tick mo f p).2) := by
  unfold feedOne
  rw [named_get hN]
  rcases f.get p.1 with _ | v
  · simp only [Option.map_none]
    have hr : (N.ind p.2).ref = N.indRef p.2.ref := rfl
    rw [named_build hN, hr]
    rcases p.2.build heap id f mo with e | nv
    · rfl
    · simp only [Except.map]
      rw [named_setInd hN]
  · simp only [Option.map_some]
    rw [named_valTick, named_trackVal]
    rcases v.onNewTick heap f tick mo with e | v'
    · exact congrArg (·, some e) (named_setInd hN f p.1 (some (v.track tick mo)))
    · exact congrArg (·, none) (named_setInd hN f p.1 (some v'))

theorem named_feedInds (heap : List Frame) (id : ℕ) (tick : Tick) (mo : Bool) (d : Dict Indicator) : ∀ f : Frame,
    feedInds (heap.map N.frame) id tick mo (d.map (fun p => (N.indRef p.1, N.ind p.2))) (N.frame f) =
      (N.frame (feedInds heap id tick mo d f).1, (feedInds heap id tick mo d f).2) := by
  induction d with
  | nil => intro f; rfl
  | cons p d ih =>
    intro f
    simp only [List.map_cons]
    unfold feedInds
    rw [named_feedOne hN]
    rcases feedOne heap id tick mo f p with ⟨f', _ | e⟩
    · exact ih f'
    · rfl

omit hN in
theorem named_feedClean (max : ℤ) (l : List ℕ) : ∀ heap : List Frame,
    feedClean max (heap.map N.frame) l =
      (((feedClean max heap l).1.1.map N.frame, (feedClean max heap l).1.2), (feedClean max heap l).2) := by
  induction l with
  | nil => intro heap; rfl
  | cons a l ih =>
    intro heap
    rcases l with _ | ⟨b, rest⟩
    · rfl
    · unfold feedClean
      simp only
      split_ifs
      · rw [map_modify_comm N.frame (fun f => { f with prev := none }) _ (fun f => rfl),
          map_modify_comm N.frame (fun f => { f with next := none }) _ (fun f => rfl)]
        exact ih _
      · rfl

omit hN in
theorem named_linkNext (heap : List Frame) (cur : Option ℕ) (id : ℕ) :
    linkNext (heap.map N.frame) cur id = (linkNext heap cur id).map N.frame := by
  unfold linkNext
  rcases cur with _ | i
  · rfl
  · exact map_modify_comm N.frame (fun f => { f with next := some id }) _ (fun f => rfl) heap i

/-- Spec: outcome of a call on a frame set, renamed. -/
def Spec.Naming.fed (N : Spec.Naming) (r : FrameSet × Option PyErr) : FrameSet × Option PyErr := (N.frameSet r.1, r.2)

theorem named_feedCreate (fs : FrameSet) (x : Ctx) (tick : Tick) (ps : ℤ) (pe : Option ℤ) :
    (N.frameSet fs).feedCreate x tick ps pe = N.fed (fs.feedCreate x tick ps pe) := by
  unfold FrameSet.feedCreate
  have hh : (N.frameSet fs).heap = fs.heap.map N.frame := rfl
  have hl : (fs.heap.map N.frame).length = fs.heap.length := List.length_map _
  have hf : (N.frameSet fs).frames = fs.frames := rfl
  have hi : (N.frameSet fs).indicators = fs.indicators.map (fun p => (N.indRef p.1, N.ind p.2)) := rfl
  have hm : (N.frameSet fs).maxFrames = fs.maxFrames := rfl
  have hn : N.frame (Frame.fresh tick ps pe fs.frames.getLast?) = Frame.fresh tick ps pe fs.frames.getLast? := rfl
  have hup := named_upsert hN fs.heap fs.heap.length tick x.marketOpen fs.indicators
    (Frame.fresh tick ps pe fs.frames.getLast?)
  rw [hn] at hup
  simp only [hh, hl, hf, hi, hm]
  rw [hup]
  rcases upsert fs.heap fs.heap.length tick x.marketOpen fs.indicators (Frame.fresh tick ps pe fs.frames.getLast?)
    with e | f
  · rfl
  · simp only [Except.map]
    have happ : linkNext (fs.heap.map N.frame) fs.frames.getLast? fs.heap.length ++ [N.frame f] =
        (linkNext fs.heap fs.frames.getLast? fs.heap.length ++ [f]).map N.frame := by
      rw [named_linkNext, List.map_append]; rfl
    rw [happ, named_feedClean]
    rfl

omit hN in
theorem named_current (fs : FrameSet) :
    (N.frameSet fs).current = fs.current.map (fun p => (p.1, N.frame p.2)) := by
  unfold FrameSet.current
  have hh : (N.frameSet fs).heap = fs.heap.map N.frame := rfl
  have hf : (N.frameSet fs).frames = fs.frames := rfl
  rw [hh, hf]
  rcases fs.frames.getLast? with _ | i
  · rfl
  · simp only
    rw [List.getElem?_map]
    rcases fs.heap[i]? with _ | f <;> rfl
theorem named_feedFill (x : Ctx) (ps : ℤ) (n : ℕ) : ∀ fs : FrameSet,
    feedFill x ps n (N.frameSet fs) = N.fed (feedFill x ps n fs) := by
  induction n with
  | zero =>
    intro fs
    unfold feedFill
    rw [named_current]
    rcases fs.current with _ | ⟨i, f⟩
    · rfl
    · simp only [Option.map_some]
      have hp : (N.frame f).periodEnd = f.periodEnd := rfl
      rw [hp]
      rcases f.periodEnd with _ | pe
      · rfl
      · simp only
        split_ifs <;> rfl
  | succ n ih =>
    intro fs
    unfold feedFill
    rw [named_current]
    rcases fs.current with _ | ⟨i, f⟩
    · rfl
    · simp only [Option.map_some]
      have hp : (N.frame f).periodEnd = f.periodEnd := rfl
      have hlast : (N.frame f).last = f.last := rfl
      have hu : (N.frameSet fs).unit = fs.unit := rfl
      have hq : (N.frameSet fs).qty = fs.qty := rfl
      rw [hp, hlast, hu, hq]
      rcases f.periodEnd with _ | pe
      · rfl
      · simp only
        split_ifs
        · rw [named_feedCreate hN]
          rcases fs.feedCreate x f.last pe (some (frameEnd x.zone fs.unit fs.qty pe)) with ⟨fs', _ | e⟩
          · exact ih fs'
          · rfl
        · rfl

omit hN in
theorem named_fillFuel (fs : FrameSet) (ps : ℤ) : fillFuel (N.frameSet fs) ps = fillFuel fs ps := by
  unfold fillFuel
  rw [named_current]
  rcases fs.current with _ | ⟨i, f⟩ <;> rfl

theorem named_feed (fs : FrameSet) (x : Ctx) (tick : Tick) : (N.frameSet fs).feed x tick = N.fed (fs.feed x tick) := by
  have hu : (N.frameSet fs).unit = fs.unit := rfl
  have hq : (N.frameSet fs).qty = fs.qty := rfl
  have hlast : (N.frameSet fs).feedLast x tick = N.fed (fs.feedLast x tick) := by
    unfold FrameSet.feedLast
    rw [named_current]
    rcases fs.current with _ | ⟨i, f⟩
    · rfl
    · simp only [Option.map_some]
      have hh : (N.frameSet fs).heap = fs.heap.map N.frame := rfl
      have hi : (N.frameSet fs).indicators = fs.indicators.map (fun p => (N.indRef p.1, N.ind p.2)) := rfl
      rw [named_trackFrame, hh, hi, named_feedInds hN]
      unfold Spec.Naming.fed Spec.Naming.frameSet
      simp only [List.map_set]
  have hover : (N.frameSet fs).overTick x tick = fs.overTick x tick := by
    unfold FrameSet.overTick
    rw [named_current, hq]
    rcases fs.current with _ | ⟨i, f⟩ <;> rfl
  have htimed : (N.frameSet fs).overTimed tick = fs.overTimed tick := by
    unfold FrameSet.overTimed
    rw [named_current]
    rcases fs.current with _ | ⟨i, f⟩ <;> rfl
  have hft : (N.frameSet fs).feedTimed x tick = N.fed (fs.feedTimed x tick) := by
    unfold FrameSet.feedTimed
    rw [hu, hq]
    rcases frameStart fs.unit fs.qty tick.dt.wall with e | ps
    · rfl
    · simp only
      rw [named_fillFuel, named_feedFill hN x ps _ fs]
      rcases feedFill x ps (fillFuel fs ps) fs with ⟨fs', _ | e⟩
      · exact named_feedCreate hN fs' x tick ps _
      · rfl
  unfold FrameSet.feed
  rw [hu, hover, htimed, hlast, hft, named_feedCreate hN]
  split_ifs
  · rfl
  · rfl
  · rcases fs.overTimed tick with e | b
    · rfl
    · simp only
      split_ifs <;> rfl

theorem named_updateFrameSets (x : Ctx) (tick : Tick) (d : Dict FrameSet) :
    updateFrameSets x tick (d.map (fun p => (N.fsetRef p.1, N.frameSet p.2))) =
      ((updateFrameSets x tick d).1.map (fun p => (N.fsetRef p.1, N.frameSet p.2)), (updateFrameSets x tick d).2) := by
  induction d with
  | nil => rfl
  | cons p d ih =>
    obtain ⟨r, fs⟩ := p
    simp only [List.map_cons]
    unfold updateFrameSets
    rw [named_feed hN fs]
    rcases fs.feed x tick with ⟨fs', _ | e⟩
    · simp only [Spec.Naming.fed]
      rw [ih]
      rfl
    · rfl

theorem named_accept (ep : Epic) (tick : Tick) :
    (N.epic ep).accept tick = (N.epic (ep.accept tick).1, (ep.accept tick).2) := by
  have h := named_updateFrameSets hN
    ⟨ep.zone, some (({ ep with lastTick := tick } : Epic).isMarketOpen, ordOf tick.dt.wall)⟩ tick ep.frameSets
  unfold Epic.accept
  exact congrArg (fun r : Dict FrameSet × Option PyErr => (({ N.epic ep with
      lastTick := tick
      marketOpen := ({ ep with lastTick := tick } : Epic).isMarketOpen
      frameSets := r.1 } : Epic), r.2)) h

/-! ## Worlds -/

omit [Arith] hN in
/-- No restrictions. -/
def anything : Allowed where
  epic := fun _ => True
  last := fun _ => True
  tick := fun _ => True
  fset := fun _ => True
  ind := fun _ => True

omit [Arith] hN in
theorem anything_world (w : World) : anything.world w := fun _ _ => ⟨trivial, trivial⟩

omit [Arith] hN in
theorem anything_cmd (x : Cmd) : anything.cmd x := by rcases x <;> trivial

theorem renamed_lawful : Lawful N.renamed anything where
  tick_dt := fun _ => rfl
  dt_lt := fun _ _ => rfl
  dir_opposite := fun _ => rfl
  dir_inj := fun _ _ h => h
  trade_epic := fun _ => rfl
  trade_strategy := fun _ => rfl
  trade_dir := fun _ => rfl
  trade_openQty := fun _ => rfl
  trade_openedQty := fun _ => rfl
  trade_closes := fun _ => rfl
  trade_setQty := fun _ _ => rfl
  trade_setStatus := fun _ _ => rfl
  trade_setClose := fun _ _ _ => rfl
  trade_update := fun _ _ => rfl
  trade_updateFromTick := fun _ _ => rfl
  trade_close := fun _ _ _ _ => rfl
  trade_closeFromTick := fun _ _ _ => rfl
  trade_open := by
    intro x _ e d q s
    have h1 : d.map N.renamed.dir = d := congrFun Option.map_id d
    rw [h1]
    show Trade.openFromTick x e d q s = (Trade.openFromTick x e d q s).map id
    rcases Trade.openFromTick x e d q s <;> rfl
  epic_lastTick := fun _ => rfl
  epic_provider := fun _ => rfl
  epic_marketOpen := fun _ => rfl
  fsetRef_inj := hN.fset
  stratRef_inj := hN.strat
  epicRef_inj := hN.epic
  epic_strategies := fun _ => rfl
  epic_ref := fun _ => rfl
  epic_frameSets := fun _ => rfl
  epic_setStrategies := fun _ _ => rfl
  epic_setFrameSets := fun _ _ => rfl
  epic_convert := fun _ _ _ _ => rfl
  tick_setDt := fun _ _ => rfl
  epic_accept := fun ep _ _ _ => named_accept hN ep _
  fset_addIndicator := by
    intro fs ind _
    have hset : ∀ i : Indicator, (N.frameSet fs).indicators.set (N.indRef i.ref) (N.ind i) =
        (fs.indicators.set i.ref i).map (fun p => (N.indRef p.1, N.ind p.2)) :=
      fun i => Dict.set_rename hN.ind N.ind fs.indicators i.ref i
    obtain ⟨ref, kind, mo⟩ := ind
    unfold FrameSet.addIndicator
    rcases kind with _ | _ | _ | _ | _ | _ | ⟨p, r⟩
    case rsi =>
      exact congrArg (fun d => (({ N.frameSet fs with indicators := d } : FrameSet),
        if fs.maxFrames < p * fs.qty then some PyErr.indicator else none)) (hset ⟨ref, .rsi p (some (p * fs.qty)), mo⟩)
    all_goals exact congrArg (fun d => (({ N.frameSet fs with indicators := d } : FrameSet), none)) (hset ⟨ref, _, mo⟩)
  last_tick := fun _ _ _ => trivial
  allowed_last := fun _ _ _ => trivial
  epic_setLast := fun _ _ => rfl
  allowed_strategies := fun _ _ _ => trivial
  allowed_accept := fun _ _ _ _ => trivial
  allowed_frameSet := fun _ _ _ _ _ _ => trivial
  allowed_indicator := fun _ _ _ _ _ _ _ => trivial

/-! ## C85 -/

variable {env env' : Env} (henv : N.renamed.RelEnv anything env env') (w : World) (l : List Cmd)

include henv

/-- C85: two runs of a program, the second with other references for epics, strategies, frame sets and indicators (different ones
stay different) and user code taking the same decisions: the second run ends in the world of the first one, renamed. -/
theorem C85_names :
    (N.renamed.world w).runCmds env' (l.map N.renamed.cmd) = N.renamed.world (w.runCmds env l) :=
  map_runCmds (renamed_lawful hN) henv w (anything_world w) l fun x _ => anything_cmd x

/-- C85, trades: with other references the same trades are made, at the same providers, and the same callbacks are called. -/
theorem C85_trades :
    let v := (N.renamed.world w).runCmds env' (l.map N.renamed.cmd)
    v.trades = (w.runCmds env l).trades ∧ v.providers = (w.runCmds env l).providers ∧ v.log = (w.runCmds env l).log := by
  simp only
  rw [C85_names hN henv w l]
  refine ⟨List.map_id _, rfl, ?_⟩
  have h : N.renamed.event = id := by
    funext x
    rcases x <;> rfl
  unfold Spec.Mapping.world
  simp only
  rw [h, List.map_id]

/-- C85, strategies: with other references strategy `s` has the same trades and pauses, hence the same result and profit factor,
and is registered with the same epics. -/
theorem C85_strategies (s : ℕ) (st : Strategy) (hst : (w.runCmds env l).strategies[s]? = some st) :
    let v := (N.renamed.world w).runCmds env' (l.map N.renamed.cmd)
    (∃ st', v.strategies[s]? = some st' ∧ st'.ref = N.stratRef st.ref ∧ st'.trades = st.trades ∧
      st'.pausedUntil = st.pausedUntil ∧ st'.epics.map Prod.snd = st.epics.map Prod.snd) ∧
    Spec.tradesOf v s = Spec.tradesOf (w.runCmds env l) s ∧
    strategyResult (Spec.tradesOf v s) .none = strategyResult (Spec.tradesOf (w.runCmds env l) s) .none ∧
    profitFactor (Spec.tradesOf v s) .none = profitFactor (Spec.tradesOf (w.runCmds env l) s) .none := by
  simp only
  rw [C85_names hN henv w l]
  have h : Spec.tradesOf (N.renamed.world (w.runCmds env l)) s = Spec.tradesOf (w.runCmds env l) s := by
    unfold Spec.tradesOf
    rw [map_strategy?, hst]
    simp only [Option.map_some]
    refine List.filterMap_congr fun i _ => ?_
    rw [map_trade?]
    exact congrFun Option.map_id _
  refine ⟨⟨N.renamed.strategy st, by rw [map_strategy?, hst]; rfl, rfl, rfl, congrFun Option.map_id _, ?_⟩, h, by rw [h],
    by rw [h]⟩
  unfold Spec.Mapping.strategy
  simp only [List.map_map]
  rfl

omit henv in
theorem named_getFrame (ep : Epic) (ref : String) (n : ℤ) :
    (N.epic ep).getFrame (N.fsetRef ref) n = (ep.getFrame ref n).map (·.map N.frame) := by
  unfold Epic.getFrame
  have hg : (N.epic ep).frameSets.get? (N.fsetRef ref) = (ep.frameSets.get? ref).map N.frameSet :=
    Dict.get?_rename hN.fset _ _ _
  rw [hg]
  rcases ep.frameSets.get? ref with _ | fs
  · rfl
  · simp only [Option.map_some, Except.map]
    unfold FrameSet.getItem Spec.Naming.frameSet
    simp only
    rcases pyGet fs.frames ((n + 1) * -1) with _ | i
    · rfl
    · simp only [Option.bind_some]
      rw [List.getElem?_map]

/-- C85, epics and frames: with other references epic `e` has the same last tick and market status, and under the new reference
every frame the user can read: the same period, number of ticks and quotes. -/
theorem C85_frames (e : ℕ) (ep : Epic) (hep : (w.runCmds env l).epics[e]? = some ep) (ref : String) (n : ℤ) (f : Frame)
    (hf : ep.getFrame ref n = .ok (some f)) :
    ∃ ep' f', ((N.renamed.world w).runCmds env' (l.map N.renamed.cmd)).epics[e]? = some ep' ∧
      ep'.ref = N.epicRef ep.ref ∧ ep'.lastTick = ep.lastTick ∧ ep'.marketOpen = ep.marketOpen ∧
      ep'.getFrame (N.fsetRef ref) n = .ok (some f') ∧ f'.periodStart = f.periodStart ∧ f'.periodEnd = f.periodEnd ∧
      f'.nbTicks = f.nbTicks ∧ (f'.first, f'.high, f'.low, f'.last) = (f.first, f.high, f.low, f.last) := by
  rw [C85_names hN henv w l]
  refine ⟨N.epic ep, N.frame f, by rw [map_epic?, hep]; rfl, rfl, rfl, rfl, ?_, rfl, rfl, rfl, rfl⟩
  rw [named_getFrame hN, hf]
  rfl

omit henv in
theorem named_previous (heap : List Frame) (v : IndVal) :
    (N.val v).previous (heap.map N.frame) = (v.previous heap).map N.val := by
  unfold IndVal.previous IndVal.parent
  have hl : (heap.map N.frame).length = heap.length := List.length_map _
  have hr : (N.val v).ind.ref = N.indRef v.ind.ref := rfl
  have hf : (N.val v).frame = v.frame := rfl
  rw [hl, hr, hf, List.getElem?_map]
  have hp : ((heap[v.frame]?).map N.frame).bind Frame.prev = (heap[v.frame]?).bind Frame.prev := by
    rcases heap[v.frame]? with _ | f <;> rfl
  rw [hp, named_prevValue hN]

omit henv in
theorem named_haOpen (heap : List Frame) (n : ℕ) : ∀ v : IndVal,
    haOpenFuel (heap.map N.frame) n (N.val v) = haOpenFuel heap n v := by
  induction n with
  | zero => intro v; rfl
  | succ n ih =>
    intro v
    unfold haOpenFuel
    rw [named_previous hN]
    rcases v.previous heap with _ | p
    · rfl
    · simp only [Option.map_some]
      have hk : (N.val p).ind.kind = p.ind.kind := rfl
      rw [hk, ih]
      rfl

omit henv in
theorem named_pivotOf (heap : List Frame) (v : IndVal) : pivotOf (heap.map N.frame) (N.val v) = pivotOf heap v := by
  have hk : (N.val v).ind.kind = v.ind.kind := rfl
  unfold pivotOf pivotOLHC pivotClassic
  rw [hk, named_previous hN, Option.map_map, Option.map_map]
  rfl

omit henv in
theorem named_pivotLevel (heap : List Frame) (v : IndVal) (g : ℚ → IndVal → ℚ) (hg : ∀ p q, g p (N.val q) = g p q) :
    pivotLevel (heap.map N.frame) (N.val v) g = pivotLevel heap v g := by
  unfold pivotLevel
  rw [named_pivotOf hN, named_previous hN]
  rcases pivotOf heap v with _ | p
  · rfl
  · simp only [Option.map_map]
    have h : g p ∘ N.val = g p := funext fun q => hg p q
    rw [h]

/-- C85, indicators: with other references every value of every indicator is found under the new reference and reads the same:
RSI, averages, candles, pivots, supports and resistances. -/
theorem C85_indicators (e : ℕ) (ep : Epic) (hep : (w.runCmds env l).epics[e]? = some ep) (ref : String) (fs : FrameSet)
    (hfs : ep.frameSets.get? ref = some fs) (i : ℕ) (f : Frame) (hf : fs.heap[i]? = some f) (iref : String) (v : IndVal)
    (hv : f.get iref = some v) :
    ∃ ep' fs' f' v', ((N.renamed.world w).runCmds env' (l.map N.renamed.cmd)).epics[e]? = some ep' ∧
      ep'.frameSets.get? (N.fsetRef ref) = some fs' ∧ fs'.heap[i]? = some f' ∧ f'.get (N.indRef iref) = some v' ∧
      v'.ind.ref = N.indRef v.ind.ref ∧ v'.rsi = v.rsi ∧ (∀ n : ℤ, smaGet fs'.heap v' n = smaGet fs.heap v n) ∧
      jOhlc v' = jOhlc v ∧ jClose fs'.heap v' = jClose fs.heap v ∧
      haOhlc fs'.heap v' = haOhlc fs.heap v ∧ haClose fs'.heap v' = haClose fs.heap v ∧
      pivotOf fs'.heap v' = pivotOf fs.heap v ∧
      support1 fs'.heap v' = support1 fs.heap v ∧ support2 fs'.heap v' = support2 fs.heap v ∧
      support3 fs'.heap v' = support3 fs.heap v ∧ resistance1 fs'.heap v' = resistance1 fs.heap v ∧
      resistance2 fs'.heap v' = resistance2 fs.heap v ∧ resistance3 fs'.heap v' = resistance3 fs.heap v := by
  rw [C85_names hN henv w l]
  have hpar : ∀ heap : List Frame, (N.val v).parent (heap.map N.frame) = (v.parent heap).map N.frame :=
    fun _ => List.getElem?_map ..
  have hclosed : (N.val v).closed (fs.heap.map N.frame) = v.closed fs.heap := by
    unfold IndVal.closed
    rw [hpar]
    rcases v.parent fs.heap with _ | g <;> rfl
  have hopen : haOpen (fs.heap.map N.frame) (N.val v) = haOpen fs.heap v := by
    unfold haOpen
    rw [List.length_map]
    exact named_haOpen hN fs.heap _ v
  have hlev : ∀ g : ℚ → IndVal → ℚ, (∀ p q, g p (N.val q) = g p q) →
      pivotLevel (N.frameSet fs).heap (N.val v) g = pivotLevel fs.heap v g := named_pivotLevel hN fs.heap v
  refine ⟨N.epic ep, N.frameSet fs, N.frame f, N.val v, by rw [map_epic?, hep]; rfl, ?_, ?_, ?_, rfl, rfl, ?_, rfl, ?_, ?_, ?_,
    named_pivotOf hN fs.heap v, hlev _ fun _ _ => rfl, hlev _ fun _ _ => rfl, hlev _ fun _ _ => rfl, hlev _ fun _ _ => rfl,
    hlev _ fun _ _ => rfl, hlev _ fun _ _ => rfl⟩
  · have hg : (N.epic ep).frameSets.get? (N.fsetRef ref) = (ep.frameSets.get? ref).map N.frameSet :=
      Dict.get?_rename hN.fset _ _ _
    rw [hg, hfs]
    rfl
  · have hh : (N.frameSet fs).heap = fs.heap.map N.frame := rfl
    rw [hh, List.getElem?_map, hf]
    rfl
  · rw [named_get hN, hv]
    rfl
  · intro n
    have hh : (N.frameSet fs).heap = fs.heap.map N.frame := rfl
    unfold smaGet
    rw [hh, hpar]
    rcases v.parent fs.heap with _ | g
    · rfl
    · simp only [Option.map_some]
      rw [named_extendedCloses]
  · have hh : (N.frameSet fs).heap = fs.heap.map N.frame := rfl
    unfold jClose
    rw [hh, hclosed]
    rfl
  · have hh : (N.frameSet fs).heap = fs.heap.map N.frame := rfl
    unfold haOhlc haHigh haLow
    rw [hh, hopen]
    rfl
  · have hh : (N.frameSet fs).heap = fs.heap.map N.frame := rfl
    unfold haClose
    rw [hh, hclosed]
    rfl

/-- C85, exceptions: every command raises with other references what it raises with the first ones. -/
theorem C85_exceptions (x : Cmd) :
    (((N.renamed.world w).runCmds env' (l.map N.renamed.cmd)).exec env' (N.renamed.cmd x)).2 =
      ((w.runCmds env l).exec env x).2 := by
  rw [C85_names hN henv w l, map_exec (renamed_lawful hN) henv _ (anything_world _) x (anything_cmd x)]
  rfl

omit henv in
/-- C85: callbacks that read frames under their reference and decide on prices: used with the new reference they take the same
decisions, so the theorems cover them. -/
theorem C85_trend (q : ℤ) (ref : String) (d : ℤ) :
    N.renamed.RelEnv anything (Spec.trendAndPause q ref d) (Spec.trendAndPause q (N.fsetRef ref) d) := by
  intro s cb e w _
  unfold Spec.trendAndPause
  rcases cb
  · exact .act (.closeOpened s none) _ _ (fun _ _ _ => .done)
  · exact .done
  · simp only
    rw [map_epic?]
    rcases w.epics[e]? with _ | ep
    · exact .done
    · simp only [Option.map_some]
      have hg : (N.renamed.epic ep).getFrame (N.fsetRef ref) 0 = _ := named_getFrame hN ep ref 0
      rw [hg]
      rcases ep.getFrame ref 0 with err | _ | f
      · exact .done
      · exact .done
      · simp only [Except.map, Option.map_some]
        refine .act (.openTrade e (some s) (some (if f.first.value < ep.lastTick.value then .buy else .sell)) q) _ _
          (fun _ _ _ => ?_)
        exact .act (.pause s (some ⟨ep.lastTick.dt.utc + d, ep.lastTick.dt.wall + d, ep.lastTick.dt.tz⟩)) _ _
          (fun _ _ _ => .done)
  · exact .done

end

/-! ## Concrete cases -/

/-- Other references: everything gets a prefix. -/
private def prefixed : Spec.Naming := ⟨("epic " ++ ·), ("strategy " ++ ·), ("set " ++ ·), ("ind " ++ ·)⟩

private theorem prefix_inj (a : String) : Function.Injective (a ++ ·) := by
  intro x y h
  have h' := congrArg String.toList h
  simp only [String.toList_append] at h'
  exact String.toList_inj.mp (List.append_cancel_left h')

private theorem prefixed_distinct : prefixed.Distinct := ⟨prefix_inj _, prefix_inj _, prefix_inj _, prefix_inj _⟩

private def named : List Cmd :=
  [.addFrameSet 0 "UT1" Demo.minutes, .addIndicator 0 "UT1" ⟨"SMA", .sma 2, false⟩, .addStrategy 0 0,
   .addFrameSet 0 "UT1" Demo.minutes, .tick 0 (Demo.tk 956 10 12), .tick 0 (Demo.tk 956 12 14),
   .tick 0 (Demo.tk 958 9 11), .tick 0 (Demo.tk 959 (25 / 2) 13), .tick 0 (Demo.tk 961 10 12)]

/-- C85: the prefixed program makes the same trades. -/
example : letI := Arith.exact
    ((prefixed.renamed.world Demo.world).runCmds (Spec.trendAndPause 3 "set UT1" (2 * minUs))
      (named.map prefixed.renamed.cmd)).trades =
    (Demo.world.runCmds (Spec.trendAndPause 3 "UT1" (2 * minUs)) named).trades := by
  letI := Arith.exact
  exact (C85_trades prefixed_distinct (C85_trend prefixed_distinct 3 "UT1" (2 * minUs)) Demo.world named).1

/-- C85: that run has trades, a refused second frame set "UT1" and two minutes with averages. -/
example : letI := Arith.exact
    let env := Spec.trendAndPause 3 "UT1" (2 * minUs)
    (Demo.world.runCmds env named).trades.map Trade.result = [-6, -9] ∧
    (Demo.world.runCmds env (named.take 4)).epics.map (fun ep => ep.frameSets.length) = [1, 0] ∧
    ((prefixed.renamed.world Demo.world).runCmds (Spec.trendAndPause 3 "set UT1" (2 * minUs))
      (named.map prefixed.renamed.cmd)).epics.map (fun ep => (ep.ref, ep.frameSets.map Prod.fst, ep.strategies)) =
      [("epic E0", ["set UT1"], [("strategy S0", 0)]), ("epic E1", [], [])] := by
  letI := Arith.exact
  decide +kernel

/-- C85 needs different references to stay different: with one name for all frame sets the second one is refused, and its frames
are missing. -/
theorem C85_same_name : letI := Arith.exact
    let one : Spec.Naming := ⟨id, id, fun _ => "same", id⟩
    let l : List Cmd := [.addFrameSet 0 "UT1" Demo.minutes, .addFrameSet 0 "T" ⟨.tick, 1, 10, [], [], []⟩,
      .tick 0 (Demo.tk 956 10 12)]
    let sets := fun w : World => w.epics.map fun ep => ep.frameSets.map Prod.fst
    sets (Demo.world.runCmds Demo.quiet l) = [["UT1", "T"], []] ∧
    sets (Demo.world.runCmds Demo.quiet (l.map one.renamed.cmd)) = [["same"], []] := by
  letI := Arith.exact
  decide +kernel

end Estrade
