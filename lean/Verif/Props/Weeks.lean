import Verif.Lemmas.Mapping
import Verif.Indicators
import Verif.Demo

/-!
# C83: which week it is does not matter
(estrade/epic.py, estrade/graph/frame_set.py, estrade/mixins/timeframe.py, estrade/strategy.py)

Two runs of a whole program, the second a whole number of weeks later.
-/

set_option linter.style.haveILetI false
set_option linter.unusedSectionVars false
set_option autoImplicit false

namespace Estrade

/-- Spec: `k` weeks, in microseconds. -/
def Spec.weeks (k : ℤ) : ℤ := k * (7 * (24 * (60 * (60 * 1000000))))

/-- Spec: the datetime `k` weeks later. -/
def Spec.later (k : ℤ) (d : DT) : DT := ⟨d.utc + Spec.weeks k, d.wall + Spec.weeks k, d.tz⟩

/-- Spec: the tick `k` weeks later. -/
def Spec.laterTick (k : ℤ) (t : Tick) : Tick := { t with dt := Spec.later k t.dt }

/-- Spec: the zone whose clock changes come `k` weeks later. -/
def Spec.laterZone (k : ℤ) (z : Zone) : Zone :=
  ⟨z.id, fun u => z.off (u - Spec.weeks k), fun w => z.resolve (w - Spec.weeks k) + Spec.weeks k⟩

/-- Spec: the indicator value `k` weeks later: closes, changes and RSI are the same. -/
def Spec.laterVal (k : ℤ) (v : IndVal) : IndVal :=
  { v with
    first := Spec.laterTick k v.first
    high := Spec.laterTick k v.high
    low := Spec.laterTick k v.low
    last := Spec.laterTick k v.last }

/-- Spec: the frame `k` weeks later. -/
def Spec.laterFrame (k : ℤ) (f : Frame) : Frame :=
  { f with
    periodStart := f.periodStart + Spec.weeks k
    periodEnd := f.periodEnd.map (· + Spec.weeks k)
    first := Spec.laterTick k f.first
    high := Spec.laterTick k f.high
    low := Spec.laterTick k f.low
    last := Spec.laterTick k f.last
    inds := f.inds.map (fun p => (p.1, p.2.map (Spec.laterVal k))) }

/-- Spec: the frame set `k` weeks later. -/
def Spec.laterFrameSet (k : ℤ) (fs : FrameSet) : FrameSet := { fs with heap := fs.heap.map (Spec.laterFrame k) }

/-- Spec: the epic `k` weeks later: holidays and clock changes too; hours and trade days are the same. -/
def Spec.laterEpic (k : ℤ) (e : Epic) : Epic :=
  { e with
    zone := Spec.laterZone k e.zone
    holidays := e.holidays.map (· + 7 * k)
    lastTick := Spec.laterTick k e.lastTick
    frameSets := e.frameSets.map (fun p => (p.1, Spec.laterFrameSet k p.2)) }

/-- Spec: the close `k` weeks later. -/
def Spec.laterClose (k : ℤ) (x : TradeClose) : TradeClose := { x with dt := Spec.later k x.dt }

/-- Spec: the trade `k` weeks later: everything but the dates is the same. -/
def Spec.laterTrade (k : ℤ) (t : Trade) : Trade :=
  { t with
    dt := Spec.later k t.dt
    closes := t.closes.map (Spec.laterClose k) }

/-- Spec: everything `k` weeks later. -/
def Spec.moved (k : ℤ) : Spec.Mapping where
  tick := Spec.laterTick k
  dt := Spec.later k
  dir := id
  price := id
  fset := Spec.laterFrameSet k
  epic := Spec.laterEpic k
  trade := Spec.laterTrade k

section
variable [Arith] {k : ℤ}

/-- The context of a frame set `k` weeks later. -/
def laterCtx (k : ℤ) (x : Ctx) : Ctx := ⟨Spec.laterZone k x.zone, x.epic.map (fun p => (p.1, p.2 + 7 * k))⟩

theorem laterCtx_marketOpen (x : Ctx) : (laterCtx k x).marketOpen = x.marketOpen := by
  unfold Ctx.marketOpen laterCtx
  rcases x.epic with _ | ⟨b, d⟩ <;> rfl

theorem feedCreate_unit (fs : FrameSet) (x : Ctx) (tick : Tick) (ps : ℤ) (pe : Option ℤ) :
    (fs.feedCreate x tick ps pe).1.unit = fs.unit := by
  unfold FrameSet.feedCreate
  simp only
  rcases upsert fs.heap fs.heap.length tick x.marketOpen fs.indicators (Frame.fresh tick ps pe fs.frames.getLast?)
    with e | f <;> rfl

theorem later_value (t : Tick) : (Spec.laterTick k t).value = t.value := rfl

/-! ## Frames and indicator values -/

theorem later_get (f : Frame) (ref : String) :
    (Spec.laterFrame k f).get ref = (f.get ref).map (Spec.laterVal k) := by
  unfold Frame.get Spec.laterFrame
  simp only
  rw [Dict.get?_map]
  rcases f.inds.get? ref with _ | _ | v <;> rfl

theorem later_setInd (f : Frame) (ref : String) (v : Option IndVal) :
    { Spec.laterFrame k f with inds := (Spec.laterFrame k f).inds.set ref (v.map (Spec.laterVal k)) } =
      Spec.laterFrame k { f with inds := f.inds.set ref v } := by
  unfold Spec.laterFrame
  simp only
  rw [Dict.set_map (fun v : Option IndVal => v.map (Spec.laterVal k))]

theorem later_prevValue (heap : List Frame) (ref : String) (n : ℕ) : ∀ i : Option ℕ,
    prevValue (heap.map (Spec.laterFrame k)) ref n i = (prevValue heap ref n i).map (Spec.laterVal k) := by
  induction n with
  | zero => intro i; rfl
  | succ n ih =>
    intro i
    rcases i with _ | i
    · rfl
    · unfold prevValue
      rw [List.getElem?_map]
      rcases heap[i]? with _ | f
      · rfl
      · simp only [Option.map_some]
        rw [later_get]
        rcases f.get ref with _ | v
        · exact ih f.prev
        · rfl

theorem later_extendedCloses (v : IndVal) (f : Frame) :
    extendedCloses (Spec.laterVal k v) (Spec.laterFrame k f) = extendedCloses v f := rfl

theorem later_extendedChanges (heap : List Frame) (v : IndVal) (f : Frame) :
    extendedChanges (heap.map (Spec.laterFrame k)) (Spec.laterVal k v) (Spec.laterFrame k f) =
      extendedChanges heap v f := by
  unfold extendedChanges
  have hp : (Spec.laterFrame k f).prev = f.prev := rfl
  rw [hp]
  rcases f.prev with _ | p
  · rfl
  · simp only
    rw [List.getElem?_map]
    rcases heap[p]? with _ | g <;> rfl

theorem later_prevCloses (heap : List Frame) (p : IndVal) :
    prevCloses (heap.map (Spec.laterFrame k)) (Spec.laterVal k p) = prevCloses heap p := by
  unfold prevCloses
  have hk : (Spec.laterVal k p).ind = p.ind := rfl
  have hf : (Spec.laterVal k p).frame = p.frame := rfl
  rw [hk, hf, List.getElem?_map]
  rcases p.ind.kind <;> try rfl
  rcases heap[p.frame]? with _ | g
  · rfl
  · simp only [Option.map_some]
    rw [later_extendedCloses]

theorem later_prevChanges (heap : List Frame) (p : IndVal) :
    prevChanges (heap.map (Spec.laterFrame k)) (Spec.laterVal k p) = prevChanges heap p := by
  unfold prevChanges
  have hk : (Spec.laterVal k p).ind = p.ind := rfl
  have hf : (Spec.laterVal k p).frame = p.frame := rfl
  rw [hk, hf, List.getElem?_map]
  rcases p.ind.kind <;> try rfl
  rcases heap[p.frame]? with _ | g
  · rfl
  · simp only [Option.map_some]
    rw [later_extendedChanges]

theorem later_updateRsi (heap : List Frame) (f : Frame) (n : ℤ) (v : IndVal) :
    updateRsi (heap.map (Spec.laterFrame k)) (Spec.laterFrame k f) n (Spec.laterVal k v) =
      (updateRsi heap f n v).map (Spec.laterVal k) := by
  unfold updateRsi
  rw [later_extendedChanges]
  simp only
  split_ifs
  · rcases buildRsi n (extendedChanges heap v f) with e | r <;> rfl
  · rfl

theorem later_newVal (heap : List Frame) (ind : Indicator) (id : ℕ) (f : Frame) :
    IndVal.new (heap.map (Spec.laterFrame k)) ind id (Spec.laterFrame k f) =
      (IndVal.new heap ind id f).map (Spec.laterVal k) := by
  unfold IndVal.new
  have hb : IndVal.base ind id (Spec.laterFrame k f) = Spec.laterVal k (IndVal.base ind id f) := rfl
  have hp : (Spec.laterFrame k f).prev = f.prev := rfl
  have hl : (heap.map (Spec.laterFrame k)).length = heap.length := List.length_map _
  rw [hb, hp, hl, later_prevValue]
  rcases ind.kind with _ | _ | _ | _ | _ | mp | ⟨q, rp⟩ <;> try rfl
  · simp only
    rcases prevValue heap ind.ref heap.length f.prev with _ | p
    · rfl
    · simp only [Option.map_some]
      rw [later_prevCloses]
      rcases prevCloses heap p with e | l <;> rfl
  · rcases rp with _ | n
    · rfl
    · simp only
      split_ifs
      · rfl
      · rcases prevValue heap ind.ref heap.length f.prev with _ | p
        · simp only [Option.map_none, bind, Except.bind]
          rw [← later_updateRsi]
          rfl
        · simp only [Option.map_some]
          rw [later_prevChanges]
          rcases prevChanges heap p with e | l
          · rfl
          · simp only [bind, Except.bind]
            rw [← later_updateRsi]
            rfl

theorem later_build (heap : List Frame) (ind : Indicator) (id : ℕ) (f : Frame) (mo : Bool) :
    ind.build (heap.map (Spec.laterFrame k)) id (Spec.laterFrame k f) mo =
      (ind.build heap id f mo).map (Option.map (Spec.laterVal k)) := by
  unfold Indicator.build
  rw [later_newVal]
  split_ifs
  · rcases IndVal.new heap ind id f with e | v <;> rfl
  · rfl

theorem later_trackVal (v : IndVal) (tick : Tick) (mo : Bool) :
    (Spec.laterVal k v).track (Spec.laterTick k tick) mo = Spec.laterVal k (v.track tick mo) := by
  unfold IndVal.track
  have h1 : (Spec.laterVal k v).high.value = v.high.value := later_value _
  have h2 : (Spec.laterVal k v).low.value = v.low.value := later_value _
  have hk : (Spec.laterVal k v).ind = v.ind := rfl
  simp only [h1, h2, hk, later_value tick]
  split_ifs <;> rfl

theorem later_valTick (heap : List Frame) (f : Frame) (v : IndVal) (tick : Tick) (mo : Bool) :
    (Spec.laterVal k v).onNewTick (heap.map (Spec.laterFrame k)) (Spec.laterFrame k f) (Spec.laterTick k tick) mo =
      (v.onNewTick heap f tick mo).map (Spec.laterVal k) := by
  unfold IndVal.onNewTick
  have hk : (Spec.laterVal k v).ind = v.ind := rfl
  rw [hk, later_trackVal]
  rcases v.ind.kind with _ | _ | _ | _ | _ | _ | ⟨q, _ | n⟩ <;> try rfl
  exact later_updateRsi heap f n _

theorem later_trackFrame (f : Frame) (tick : Tick) :
    (Spec.laterFrame k f).track (Spec.laterTick k tick) = Spec.laterFrame k (f.track tick) := by
  unfold Frame.track
  have h1 : (Spec.laterFrame k f).high.value = f.high.value := later_value _
  have h2 : (Spec.laterFrame k f).low.value = f.low.value := later_value _
  simp only [h1, h2, later_value tick]
  split_ifs <;> rfl

theorem later_upsertOne (heap : List Frame) (id : ℕ) (tick : Tick) (mo : Bool) (f : Frame) (p : String × Indicator) :
    upsertOne (heap.map (Spec.laterFrame k)) id (Spec.laterTick k tick) mo (Spec.laterFrame k f) p =
      (upsertOne heap id tick mo f p).map (Spec.laterFrame k) := by
  unfold upsertOne
  rw [later_get]
  rcases f.get p.1 with _ | v
  · simp only [Option.map_none]
    rw [later_build]
    rcases p.2.build heap id f mo with e | nv
    · rfl
    · simp only [Except.map, bind, Except.bind]
      rw [later_setInd]
  · simp only [Option.map_some]
    rw [later_valTick]
    rcases v.onNewTick heap f tick mo with e | v'
    · rfl
    · simp only [Except.map, bind, Except.bind]
      exact congrArg Except.ok (later_setInd f p.1 (some v'))

theorem later_upsert (heap : List Frame) (id : ℕ) (tick : Tick) (mo : Bool) (d : Dict Indicator) : ∀ f : Frame,
    upsert (heap.map (Spec.laterFrame k)) id (Spec.laterTick k tick) mo d (Spec.laterFrame k f) =
      (upsert heap id tick mo d f).map (Spec.laterFrame k) := by
  induction d with
  | nil => intro f; rfl
  | cons p d ih =>
    intro f
    unfold upsert at ih ⊢
    simp only [List.foldlM_cons]
    rw [later_upsertOne]
    rcases upsertOne heap id tick mo f p with e | f'
    · rfl
    · exact ih f'

theorem later_feedOne (heap : List Frame) (id : ℕ) (tick : Tick) (mo : Bool) (f : Frame) (p : String × Indicator) :
    feedOne (heap.map (Spec.laterFrame k)) id (Spec.laterTick k tick) mo (Spec.laterFrame k f) p =
      (Spec.laterFrame k (feedOne heap id tick mo f p).1, (feedOne heap id tick mo f p).2) := by
  unfold feedOne
  rw [later_get]
  rcases f.get p.1 with _ | v
  · simp only [Option.map_none]
    rw [later_build]
    rcases p.2.build heap id f mo with e | nv
    · rfl
    · simp only [Except.map]
      rw [later_setInd]
  · simp only [Option.map_some]
    rw [later_valTick, later_trackVal]
    rcases v.onNewTick heap f tick mo with e | v'
    · exact congrArg (·, some e) (later_setInd f p.1 (some (v.track tick mo)))
    · exact congrArg (·, none) (later_setInd f p.1 (some v'))

theorem later_feedInds (heap : List Frame) (id : ℕ) (tick : Tick) (mo : Bool) (d : Dict Indicator) : ∀ f : Frame,
    feedInds (heap.map (Spec.laterFrame k)) id (Spec.laterTick k tick) mo d (Spec.laterFrame k f) =
      (Spec.laterFrame k (feedInds heap id tick mo d f).1, (feedInds heap id tick mo d f).2) := by
  induction d with
  | nil => intro f; rfl
  | cons p d ih =>
    intro f
    unfold feedInds
    rw [later_feedOne]
    rcases feedOne heap id tick mo f p with ⟨f', _ | e⟩
    · exact ih f'
    · rfl

theorem later_feedClean (max : ℤ) (l : List ℕ) : ∀ heap : List Frame,
    feedClean max (heap.map (Spec.laterFrame k)) l =
      (((feedClean max heap l).1.1.map (Spec.laterFrame k), (feedClean max heap l).1.2), (feedClean max heap l).2) := by
  induction l with
  | nil => intro heap; rfl
  | cons a l ih =>
    intro heap
    rcases l with _ | ⟨b, rest⟩
    · rfl
    · unfold feedClean
      simp only
      split_ifs
      · rw [map_modify_comm (Spec.laterFrame k) (fun f => { f with prev := none }) _ (fun f => rfl),
          map_modify_comm (Spec.laterFrame k) (fun f => { f with next := none }) _ (fun f => rfl)]
        exact ih _
      · rfl

theorem later_linkNext (heap : List Frame) (cur : Option ℕ) (id : ℕ) :
    linkNext (heap.map (Spec.laterFrame k)) cur id = (linkNext heap cur id).map (Spec.laterFrame k) := by
  unfold linkNext
  rcases cur with _ | i
  · rfl
  · exact map_modify_comm (Spec.laterFrame k) (fun f => { f with next := some id }) _ (fun f => rfl) heap i

/-- Spec: outcome of a call on a frame set, later. -/
def Spec.laterFed (k : ℤ) (r : FrameSet × Option PyErr) : FrameSet × Option PyErr := (Spec.laterFrameSet k r.1, r.2)

theorem later_feedCreate (fs : FrameSet) (x : Ctx) (tick : Tick) (ps : ℤ) (pe : Option ℤ) :
    (Spec.laterFrameSet k fs).feedCreate (laterCtx k x) (Spec.laterTick k tick) (ps + Spec.weeks k)
        (pe.map (· + Spec.weeks k)) = Spec.laterFed k (fs.feedCreate x tick ps pe) := by
  unfold FrameSet.feedCreate
  have hh : (Spec.laterFrameSet k fs).heap = fs.heap.map (Spec.laterFrame k) := rfl
  have hl : (fs.heap.map (Spec.laterFrame k)).length = fs.heap.length := List.length_map _
  have hf : (Spec.laterFrameSet k fs).frames = fs.frames := rfl
  have hi : (Spec.laterFrameSet k fs).indicators = fs.indicators := rfl
  have hm : (Spec.laterFrameSet k fs).maxFrames = fs.maxFrames := rfl
  have hn : Frame.fresh (Spec.laterTick k tick) (ps + Spec.weeks k) (pe.map (· + Spec.weeks k)) fs.frames.getLast? =
      Spec.laterFrame k (Frame.fresh tick ps pe fs.frames.getLast?) := rfl
  simp only [hh, hl, hf, hi, hm, hn, laterCtx_marketOpen]
  rw [later_upsert]
  rcases upsert fs.heap fs.heap.length tick x.marketOpen fs.indicators (Frame.fresh tick ps pe fs.frames.getLast?)
    with e | f
  · rfl
  · simp only [Except.map]
    have happ : linkNext (fs.heap.map (Spec.laterFrame k)) fs.frames.getLast? fs.heap.length ++ [Spec.laterFrame k f] =
        (linkNext fs.heap fs.frames.getLast? fs.heap.length ++ [f]).map (Spec.laterFrame k) := by
      rw [later_linkNext, List.map_append]; rfl
    rw [happ, later_feedClean]
    rfl

theorem later_current (fs : FrameSet) :
    (Spec.laterFrameSet k fs).current = fs.current.map (fun p => (p.1, Spec.laterFrame k p.2)) := by
  unfold FrameSet.current
  have hh : (Spec.laterFrameSet k fs).heap = fs.heap.map (Spec.laterFrame k) := rfl
  have hf : (Spec.laterFrameSet k fs).frames = fs.frames := rfl
  rw [hh, hf]
  rcases fs.frames.getLast? with _ | i
  · rfl
  · simp only
    rw [List.getElem?_map]
    rcases fs.heap[i]? with _ | f <;> rfl

/-! ## Periods -/

theorem weeks_ord (w : ℤ) : ordOf (w + Spec.weeks k) = ordOf w + 7 * k := by
  unfold ordOf Spec.weeks dayUs hourUs minUs secUs
  omega

theorem weeks_time (w : ℤ) : timeOf (w + Spec.weeks k) = timeOf w := by
  unfold timeOf Spec.weeks dayUs hourUs minUs secUs
  omega

theorem weeks_weekday (w : ℤ) : weekdayOf (w + Spec.weeks k) = weekdayOf w := by
  unfold weekdayOf
  rw [weeks_ord]
  omega

/-- Spec: units whose periods have a constant length: all but months and years. -/
def Spec.Steady (u : Unit') : Prop := u ≠ .month ∧ u ≠ .year

theorem later_frameStart (u : Unit') (hu : Spec.Steady u) (q w : ℤ) :
    frameStart u q (w + Spec.weeks k) = (frameStart u q w).map (· + Spec.weeks k) := by
  have h : ∀ a b : ℤ, (Except.ok (a + Spec.weeks k - b) : Except PyErr ℤ) = (Except.ok (a - b)).map (· + Spec.weeks k) :=
    fun a b => congrArg Except.ok (by ring)
  unfold frameStart hourOf minuteOf secondOf microOf
  rw [weeks_time, weeks_weekday]
  rcases u <;> simp only
  · rfl
  · split_ifs
    · rfl
    · exact h _ _
  · split_ifs
    · rfl
    · exact h _ _
  · split_ifs
    · rfl
    · exact h _ _
  · split_ifs
    · rfl
    · exact h _ _
  · exact h _ _
  · exact absurd rfl hu.1
  · exact absurd rfl hu.2

theorem later_shiftUnit (u : Unit') (hu : Spec.Steady u) (q w : ℤ) :
    shiftUnit u q (w + Spec.weeks k) = shiftUnit u q w + Spec.weeks k := by
  unfold shiftUnit
  rcases u <;> simp only
  case month => exact absurd rfl hu.1
  case year => exact absurd rfl hu.2
  all_goals ring

theorem later_frameEnd (z : Zone) (u : Unit') (hu : Spec.Steady u) (q s : ℤ) :
    frameEnd (Spec.laterZone k z) u q (s + Spec.weeks k) = frameEnd z u q s + Spec.weeks k := by
  unfold frameEnd
  split_ifs
  · rfl
  · unfold Spec.laterZone
    simp only
    rw [later_shiftUnit u hu, add_sub_cancel_right]

theorem laterCtx_zone (x : Ctx) : (laterCtx k x).zone = Spec.laterZone k x.zone := rfl

theorem later_feedFill (x : Ctx) (ps : ℤ) (n : ℕ) : ∀ fs : FrameSet, Spec.Steady fs.unit →
    feedFill (laterCtx k x) (ps + Spec.weeks k) n (Spec.laterFrameSet k fs) = Spec.laterFed k (feedFill x ps n fs) := by
  induction n with
  | zero =>
    intro fs _
    unfold feedFill
    rw [later_current]
    rcases fs.current with _ | ⟨i, f⟩
    · rfl
    · simp only [Option.map_some]
      have hp : (Spec.laterFrame k f).periodEnd = f.periodEnd.map (· + Spec.weeks k) := rfl
      rw [hp]
      rcases f.periodEnd with _ | pe
      · rfl
      · simp only [Option.map_some, add_lt_add_iff_right]
        split_ifs <;> rfl
  | succ n ih =>
    intro fs hfs
    unfold feedFill
    rw [later_current]
    rcases fs.current with _ | ⟨i, f⟩
    · rfl
    · simp only [Option.map_some]
      have hp : (Spec.laterFrame k f).periodEnd = f.periodEnd.map (· + Spec.weeks k) := rfl
      have hlast : (Spec.laterFrame k f).last = Spec.laterTick k f.last := rfl
      have hu : (Spec.laterFrameSet k fs).unit = fs.unit := rfl
      have hq : (Spec.laterFrameSet k fs).qty = fs.qty := rfl
      rw [hp, hlast, hu, hq]
      rcases f.periodEnd with _ | pe
      · rfl
      · simp only [Option.map_some, add_lt_add_iff_right]
        split_ifs
        · rw [laterCtx_zone, later_frameEnd _ _ hfs]
          have hcr := later_feedCreate (k := k) fs x f.last pe (some (frameEnd x.zone fs.unit fs.qty pe))
          simp only [Option.map_some] at hcr
          rw [hcr]
          have hunit := feedCreate_unit fs x f.last pe (some (frameEnd x.zone fs.unit fs.qty pe))
          rcases hcre : fs.feedCreate x f.last pe (some (frameEnd x.zone fs.unit fs.qty pe)) with ⟨fs', _ | e⟩
          · rw [hcre] at hunit
            exact ih fs' (by rw [hunit]; exact hfs)
          · rfl
        · rfl

theorem later_fillFuel (fs : FrameSet) (ps : ℤ) :
    fillFuel (Spec.laterFrameSet k fs) (ps + Spec.weeks k) = fillFuel fs ps := by
  unfold fillFuel
  rw [later_current]
  rcases fs.current with _ | ⟨i, f⟩
  · rfl
  · simp only [Option.map_some]
    have hp : (Spec.laterFrame k f).periodEnd = f.periodEnd.map (· + Spec.weeks k) := rfl
    rw [hp]
    rcases f.periodEnd with _ | pe
    · rfl
    · simp only [Option.map_some]
      congr 1
      ring

theorem later_feed (fs : FrameSet) (hfs : Spec.Steady fs.unit) (x : Ctx) (tick : Tick) :
    (Spec.laterFrameSet k fs).feed (laterCtx k x) (Spec.laterTick k tick) = Spec.laterFed k (fs.feed x tick) := by
  have hu : (Spec.laterFrameSet k fs).unit = fs.unit := rfl
  have hq : (Spec.laterFrameSet k fs).qty = fs.qty := rfl
  have hd : (Spec.laterTick k tick).dt.wall = tick.dt.wall + Spec.weeks k := rfl
  have hlast : (Spec.laterFrameSet k fs).feedLast (laterCtx k x) (Spec.laterTick k tick) =
      Spec.laterFed k (fs.feedLast x tick) := by
    unfold FrameSet.feedLast
    rw [later_current]
    rcases fs.current with _ | ⟨i, f⟩
    · rfl
    · simp only [Option.map_some]
      have hh : (Spec.laterFrameSet k fs).heap = fs.heap.map (Spec.laterFrame k) := rfl
      have hi : (Spec.laterFrameSet k fs).indicators = fs.indicators := rfl
      rw [later_trackFrame, hh, hi, laterCtx_marketOpen, later_feedInds]
      unfold Spec.laterFed Spec.laterFrameSet
      simp only [List.map_set]
  have hover : (Spec.laterFrameSet k fs).overTick (laterCtx k x) (Spec.laterTick k tick) = fs.overTick x tick := by
    unfold FrameSet.overTick
    rw [later_current, hq, hd]
    rcases fs.current with _ | ⟨i, f⟩
    · rfl
    · simp only [Option.map_some]
      have hn : (Spec.laterFrame k f).nbTicks = f.nbTicks := rfl
      have he : (laterCtx k x).epic = x.epic.map (fun p => (p.1, p.2 + 7 * k)) := rfl
      rw [hn, he]
      rcases x.epic with _ | ⟨b, d⟩
      · rfl
      · simp only [Option.map_some, weeks_ord, add_lt_add_iff_right]
  have htimed : (Spec.laterFrameSet k fs).overTimed (Spec.laterTick k tick) = fs.overTimed tick := by
    unfold FrameSet.overTimed
    rw [later_current, hd]
    rcases fs.current with _ | ⟨i, f⟩
    · rfl
    · simp only [Option.map_some]
      have hp : (Spec.laterFrame k f).periodEnd = f.periodEnd.map (· + Spec.weeks k) := rfl
      rw [hp]
      rcases f.periodEnd with _ | pe
      · rfl
      · simp only [Option.map_some, add_le_add_iff_right]
  have hft : (Spec.laterFrameSet k fs).feedTimed (laterCtx k x) (Spec.laterTick k tick) =
      Spec.laterFed k (fs.feedTimed x tick) := by
    unfold FrameSet.feedTimed
    rw [hu, hq, hd, later_frameStart _ hfs]
    rcases frameStart fs.unit fs.qty tick.dt.wall with e | ps
    · rfl
    · simp only [Except.map]
      rw [later_fillFuel, later_feedFill x ps _ fs hfs, laterCtx_zone, later_frameEnd _ _ hfs]
      have hu' : ∀ v : FrameSet, (Spec.laterFrameSet k v).feedCreate (laterCtx k x) (Spec.laterTick k tick)
          (ps + Spec.weeks k) (some (frameEnd x.zone fs.unit fs.qty ps + Spec.weeks k)) =
          Spec.laterFed k (v.feedCreate x tick ps (some (frameEnd x.zone fs.unit fs.qty ps))) :=
        fun v => later_feedCreate v x tick ps (some _)
      rcases feedFill x ps (fillFuel fs ps) fs with ⟨fs', _ | e⟩
      · exact hu' fs'
      · rfl
  have hcr := later_feedCreate (k := k) fs x tick tick.dt.wall none
  simp only [Option.map_none] at hcr
  unfold FrameSet.feed
  rw [hu, hover, htimed, hlast, hft, hd, hcr]
  split_ifs
  · rfl
  · rfl
  · rcases fs.overTimed tick with e | b
    · rfl
    · simp only
      split_ifs <;> rfl

theorem later_updateFrameSets (x : Ctx) (tick : Tick) (d : Dict FrameSet) (hd : ∀ p ∈ d, Spec.Steady p.2.unit) :
    updateFrameSets (laterCtx k x) (Spec.laterTick k tick) (d.map (fun p => (p.1, Spec.laterFrameSet k p.2))) =
      ((updateFrameSets x tick d).1.map (fun p => (p.1, Spec.laterFrameSet k p.2)), (updateFrameSets x tick d).2) := by
  induction d with
  | nil => rfl
  | cons p d ih =>
    obtain ⟨r, fs⟩ := p
    simp only [List.map_cons]
    unfold updateFrameSets
    rw [later_feed fs (hd (r, fs) (by simp))]
    rcases fs.feed x tick with ⟨fs', _ | e⟩
    · simp only [Spec.laterFed]
      rw [ih (fun p hp => hd p (by simp [hp]))]
      rfl
    · rfl

/-! ## Epics -/

theorem later_isMarketOpen (ep : Epic) : (Spec.laterEpic k ep).isMarketOpen = ep.isMarketOpen := by
  unfold Epic.isMarketOpen
  have hw : (Spec.laterEpic k ep).lastTick.dt.wall = ep.lastTick.dt.wall + Spec.weeks k := rfl
  have hh : ((ordOf ep.lastTick.dt.wall + 7 * k) ∈ (Spec.laterEpic k ep).holidays) =
      (ordOf ep.lastTick.dt.wall ∈ ep.holidays) := by
    unfold Spec.laterEpic
    simp
  rw [hw, weeks_time, weeks_weekday, weeks_ord]
  simp only [hh]
  rfl

theorem later_accept (ep : Epic) (hep : ∀ p ∈ ep.frameSets, Spec.Steady p.2.unit) (tick : Tick) :
    (Spec.laterEpic k ep).accept (Spec.laterTick k tick) =
      (Spec.laterEpic k (ep.accept tick).1, (ep.accept tick).2) := by
  have h := later_updateFrameSets (k := k)
    ⟨ep.zone, some (({ ep with lastTick := tick } : Epic).isMarketOpen, ordOf tick.dt.wall)⟩ tick ep.frameSets hep
  have hm := later_isMarketOpen (k := k) { ep with lastTick := tick }
  have ho : ordOf (Spec.laterTick k tick).dt.wall = ordOf tick.dt.wall + 7 * k := weeks_ord _
  unfold Epic.accept
  have h' := congrArg (fun r : Dict FrameSet × Option PyErr => (({ Spec.laterEpic k ep with
      lastTick := Spec.laterTick k tick
      marketOpen := ({ ep with lastTick := tick } : Epic).isMarketOpen
      frameSets := r.1 } : Epic), r.2)) h
  refine Eq.trans ?_ h'
  have hm' : ({ Spec.laterEpic k ep with lastTick := Spec.laterTick k tick } : Epic).isMarketOpen =
      ({ ep with lastTick := tick } : Epic).isMarketOpen := hm
  simp only [hm', ho]
  rfl

theorem feedFill_unit (x : Ctx) (ps : ℤ) (n : ℕ) : ∀ fs : FrameSet, (feedFill x ps n fs).1.unit = fs.unit := by
  induction n with
  | zero =>
    intro fs
    unfold feedFill
    rcases fs.current with _ | ⟨i, f⟩
    · rfl
    · simp only
      rcases f.periodEnd with _ | pe
      · rfl
      · simp only
        split_ifs <;> rfl
  | succ n ih =>
    intro fs
    unfold feedFill
    rcases fs.current with _ | ⟨i, f⟩
    · rfl
    · simp only
      rcases f.periodEnd with _ | pe
      · rfl
      · simp only
        split_ifs
        · have hunit := feedCreate_unit fs x f.last pe (some (frameEnd x.zone fs.unit fs.qty pe))
          rcases hcre : fs.feedCreate x f.last pe (some (frameEnd x.zone fs.unit fs.qty pe)) with ⟨fs', _ | e⟩
          · rw [hcre] at hunit
            exact (ih fs').trans hunit
          · rw [hcre] at hunit
            exact hunit
        · rfl

theorem feed_unit (fs : FrameSet) (x : Ctx) (tick : Tick) : (fs.feed x tick).1.unit = fs.unit := by
  have hlast : (fs.feedLast x tick).1.unit = fs.unit := by
    unfold FrameSet.feedLast
    rcases fs.current with _ | ⟨i, f⟩ <;> rfl
  unfold FrameSet.feed
  split_ifs
  · exact feedCreate_unit _ _ _ _ _
  · exact hlast
  · rcases fs.overTimed tick with e | b
    · rfl
    · simp only
      split_ifs
      · unfold FrameSet.feedTimed
        rcases frameStart fs.unit fs.qty tick.dt.wall with e | ps
        · rfl
        · simp only
          have h := feedFill_unit x ps (fillFuel fs ps) fs
          rcases hf : feedFill x ps (fillFuel fs ps) fs with ⟨fs', _ | e⟩
          · rw [hf] at h
            exact (feedCreate_unit _ _ _ _ _).trans h
          · rw [hf] at h
            exact h
      · exact hlast

theorem updateFrameSets_unit (x : Ctx) (tick : Tick) (d : Dict FrameSet) :
    (updateFrameSets x tick d).1.map (fun p => p.2.unit) = d.map (fun p => p.2.unit) := by
  induction d with
  | nil => rfl
  | cons p d ih =>
    obtain ⟨r, fs⟩ := p
    unfold updateFrameSets
    have h := feed_unit fs x tick
    rcases hf : fs.feed x tick with ⟨fs', _ | e⟩
    · rw [hf] at h
      simp only [List.map_cons]
      rw [ih, h]
    · rw [hf] at h
      simp only [List.map_cons]
      rw [h]

/-! ## Trades -/

theorem later_closedQty (t : Trade) : (Spec.laterTrade k t).closedQty = t.closedQty := by
  unfold Trade.closedQty Spec.laterTrade
  simp only [List.map_map]
  rfl

theorem later_openedQty (t : Trade) : (Spec.laterTrade k t).openedQty = t.openedQty := by
  unfold Trade.openedQty
  rw [later_closedQty]
  rfl

theorem later_closed (t : Trade) : (Spec.laterTrade k t).closed = t.closed := by
  unfold Trade.closed
  rw [later_openedQty]

theorem later_closedResult (t : Trade) : (Spec.laterTrade k t).closedResult = t.closedResult := by
  unfold Trade.closedResult Spec.laterTrade
  simp only [List.map_map]
  congr 1

theorem later_openedResultAvg (t : Trade) : (Spec.laterTrade k t).openedResultAvg = t.openedResultAvg := by
  unfold Trade.openedResultAvg
  rw [later_closed]
  rfl

theorem later_openedResult (t : Trade) : (Spec.laterTrade k t).openedResult = t.openedResult := by
  unfold Trade.openedResult
  rw [later_openedResultAvg, later_openedQty]

theorem later_result (t : Trade) : (Spec.laterTrade k t).result = t.result := by
  unfold Trade.result
  rw [later_openedResult, later_closedResult]

theorem later_updateMinMax (t : Trade) : (Spec.laterTrade k t).updateMinMax = Spec.laterTrade k t.updateMinMax := by
  have h1 : (Spec.laterTrade k t).maxRes < (Spec.laterTrade k t).result ↔ t.maxRes < t.result := by
    rw [later_result]; rfl
  have h3 : ∀ u : Trade, (Spec.laterTrade k u).result < (Spec.laterTrade k u).minRes ↔ u.result < u.minRes := by
    intro u
    rw [later_result]; rfl
  unfold Trade.updateMinMax
  simp only [h1]
  have h4 : (if t.maxRes < t.result then { Spec.laterTrade k t with maxRes := (Spec.laterTrade k t).result }
      else Spec.laterTrade k t) =
      Spec.laterTrade k (if t.maxRes < t.result then { t with maxRes := t.result } else t) := by
    split_ifs
    · rw [later_result]; rfl
    · rfl
  rw [h4]
  simp only [h3]
  generalize (if t.maxRes < t.result then { t with maxRes := t.result } else t) = u
  split_ifs
  · rw [later_result]; rfl
  · rfl

theorem later_update (t : Trade) (v : ℚ) : (Spec.laterTrade k t).update v = Spec.laterTrade k (t.update v) := by
  unfold Trade.update
  rw [later_closed]
  split_ifs
  · rfl
  · exact later_updateMinMax { t with curClose := v }

theorem later_updateFromTick (t : Trade) (x : Tick) :
    (Spec.laterTrade k t).updateFromTick (Spec.laterTick k x) = Spec.laterTrade k (t.updateFromTick x) := by
  unfold Trade.updateFromTick
  rw [← later_update]
  rfl

theorem later_close (t : Trade) (v : ℚ) (dt : DT) (q : Option ℤ) :
    (Spec.laterTrade k t).close v (Spec.later k dt) q = Spec.laterTrade k (t.close v dt q) := by
  unfold Trade.close
  have h : (Spec.laterTrade k t).closeQty q = t.closeQty q := by
    unfold Trade.closeQty
    rw [later_openedQty]
  rw [h]
  unfold Spec.laterTrade
  simp only [List.map_append]
  rfl

theorem later_closeFromTick (t : Trade) (x : Tick) (q : Option ℤ) :
    (Spec.laterTrade k t).closeFromTick (Spec.laterTick k x) q = Spec.laterTrade k (t.closeFromTick x q) := by
  unfold Trade.closeFromTick
  simp only
  rw [later_updateFromTick]
  exact later_close (t.updateFromTick x) _ _ _

/-! ## Worlds -/

/-- The restrictions: frame sets of seconds to weeks, or of ticks. -/
def steady : Allowed where
  epic := fun ep => ∀ p ∈ ep.frameSets, Spec.Steady p.2.unit
  last := fun _ => True
  tick := fun _ => True
  fset := fun fs => Spec.Steady fs.unit
  ind := fun _ => True

theorem steady_set {d : Dict FrameSet} (hd : ∀ p ∈ d, Spec.Steady p.2.unit) (ref : String) (fs : FrameSet)
    (hfs : Spec.Steady fs.unit) : ∀ p ∈ d.set ref fs, Spec.Steady p.2.unit := by
  intro p hp
  unfold Dict.set at hp
  split_ifs at hp
  · obtain ⟨a, ha, rfl⟩ := List.mem_map.mp hp
    split_ifs
    · exact hfs
    · exact hd a ha
  · rcases List.mem_append.mp hp with h | h
    · exact hd p h
    · rw [List.mem_singleton.mp h]; exact hfs

theorem addIndicator_unit (fs : FrameSet) (ind : Indicator) : (fs.addIndicator ind).1.unit = fs.unit := by
  unfold FrameSet.addIndicator
  rcases ind.kind <;> rfl

theorem moved_lawful (k : ℤ) : Lawful (Spec.moved k) steady where
  tick_dt := fun _ => rfl
  dt_lt := by
    intro a b
    unfold DT.lt Spec.moved Spec.later
    simp only [add_lt_add_iff_right]
  dir_opposite := fun _ => rfl
  dir_inj := fun _ _ h => h
  trade_epic := fun _ => rfl
  trade_strategy := fun _ => rfl
  trade_dir := fun _ => rfl
  trade_openQty := fun _ => rfl
  trade_openedQty := later_openedQty
  trade_closes := fun t => List.length_map _
  trade_setQty := fun _ _ => rfl
  trade_setStatus := fun _ _ => rfl
  trade_setClose := by
    intro t i st
    show Spec.laterTrade k _ = _
    unfold Spec.moved Spec.laterTrade
    simp only
    rw [map_modify_comm (Spec.laterClose k) (fun c => { c with status := st }) (fun c => { c with status := st })
      (fun _ => rfl)]
  trade_update := later_update
  trade_updateFromTick := later_updateFromTick
  trade_close := later_close
  trade_closeFromTick := later_closeFromTick
  trade_open := by
    intro x _ e d q s
    rcases d with _ | _ | _ <;> rfl
  epic_lastTick := fun _ => rfl
  epic_provider := fun _ => rfl
  epic_marketOpen := fun _ => rfl
  fsetRef_inj := Function.injective_id
  stratRef_inj := Function.injective_id
  epicRef_inj := Function.injective_id
  epic_strategies := fun _ => (List.map_id _).symm
  epic_ref := fun _ => rfl
  epic_frameSets := fun _ => rfl
  epic_setStrategies := fun ep d => by
    have h : d.map (fun p : String × ℕ => (id p.1, p.2)) = d := List.map_id _
    exact (congrArg (fun x => ({ Spec.laterEpic k ep with strategies := x } : Epic)) h).symm
  epic_setFrameSets := fun _ _ => rfl
  epic_convert := by
    intro ep x _ _
    unfold DT.to Spec.moved Spec.laterEpic Spec.later Spec.laterZone
    simp only [add_sub_cancel_right]
    congr 1
    ring
  tick_setDt := fun _ _ => rfl
  epic_accept := fun ep x hep _ => later_accept ep hep _
  fset_addIndicator := by
    intro fs ind _
    obtain ⟨r, kind, mo⟩ := ind
    rcases kind <;> rfl
  last_tick := fun _ _ _ => trivial
  allowed_last := fun _ _ h => h
  epic_setLast := fun _ _ => rfl
  allowed_strategies := fun _ _ h => h
  allowed_accept := by
    intro ep x hep _ p hp
    have h := updateFrameSets_unit
      ⟨ep.zone, some (({ ep with lastTick := { x with dt := x.dt.to ep.zone } } : Epic).isMarketOpen,
        ordOf (x.dt.to ep.zone).wall)⟩ { x with dt := x.dt.to ep.zone } ep.frameSets
    have hm := List.mem_map_of_mem (f := fun p : String × FrameSet => p.2.unit) hp
    have hm' : p.2.unit ∈ ep.frameSets.map (fun p => p.2.unit) := by
      rw [← h]; exact hm
    obtain ⟨a, ha, h2⟩ := List.mem_map.mp hm'
    rw [← h2]
    exact hep a ha
  allowed_frameSet := fun ep ref fs h hfs _ => steady_set h ref fs hfs
  allowed_indicator := by
    intro ep ref fs ind h _ hg
    refine steady_set h ref _ ?_
    rw [addIndicator_unit]
    exact h (ref, fs) (Dict.mem_of_get? hg)

/-! ## C83 -/

/-- Spec: a tick after the placeholder of 1900 in both runs, so that a new epic accepts it in both. -/
def Spec.After1900 (k : ℤ) (z : Zone) (t : Tick) : Prop :=
  midnight 1900 1 1 < t.dt.utc ∧ midnight 1900 1 1 < t.dt.utc + Spec.weeks k ∧
  midnight 1900 1 1 < t.dt.utc + z.off t.dt.utc ∧ midnight 1900 1 1 < t.dt.utc + z.off t.dt.utc + Spec.weeks k

theorem moved_starts (k : ℤ) : Starts (Spec.moved k) (Spec.After1900 k) where
  real := by
    intro z x h he
    have hu : x.dt.utc = midnight 1900 1 1 := congrArg (fun t : Tick => t.dt.utc) he
    have h1 := h.1
    omega
  order := by
    intro z x ⟨h1, h2, h3, h4⟩
    unfold Spec.moved DT.lt DT.to Spec.later Tick.epoch
    simp only
    split_ifs
    · rw [decide_eq_false (by omega), decide_eq_false (by omega)]
    · rw [decide_eq_false (by omega), decide_eq_false (by omega)]

theorem init_early {A : Allowed} (w : World) (hw : w.Init) (hA : ∀ ep ∈ w.epics, A.epic ep) : Early A w := by
  refine ⟨Or.inl hw.trades, fun ep hep => ⟨hA ep hep, fun h => ?_⟩⟩
  obtain ⟨_, _, _, _, _, _, _, _, rfl⟩ := hw.epics ep hep
  exact absurd rfl h

/-- Spec: the new epic with its clock changes and holidays `k` weeks later. -/
def Spec.laterStart (k : ℤ) (w : World) : World :=
  { w with epics := w.epics.map fun e =>
      { e with zone := Spec.laterZone k e.zone, holidays := e.holidays.map (· + 7 * k) } }

theorem moved_start (k : ℤ) (w : World) (hw : w.Init) : (Spec.moved k).start w = Spec.laterStart k w := by
  have h1 : w.epics.map (Spec.moved k).startEpic = w.epics.map fun e =>
      { e with zone := Spec.laterZone k e.zone, holidays := e.holidays.map (· + 7 * k) } := by
    refine List.map_congr_left fun ep hep => ?_
    obtain ⟨_, _, _, _, _, _, _, _, rfl⟩ := hw.epics ep hep
    unfold Spec.Mapping.startEpic
    rw [if_pos (by rfl)]
    rfl
  have h2 : w.strategies.map (Spec.moved k).strategy = w.strategies := by
    conv_rhs => rw [← List.map_id w.strategies]
    refine List.map_congr_left fun s hs => ?_
    obtain ⟨_, rfl⟩ := hw.strategies s hs
    rfl
  unfold Spec.Mapping.start Spec.laterStart Spec.Mapping.world
  rw [h1, h2, hw.trades, hw.log]
  rfl

/-- C83: two runs of a program with frame sets of ticks, seconds, minutes, hours, days or weeks, the second with all
dates (ticks, closes, pauses, holidays, clock changes) `k` weeks later and user code taking the same decisions: the second
run ends in the world of the first one, `k` weeks later.  Missing: months and years, see `C83_false`. -/
theorem C83_weeks_partial (k : ℤ) {env env' : Env} (henv : (Spec.moved k).RelEnv steady env env') (w : World) (hw : w.Init)
    (l : List Cmd) (hl : Spec.Program steady (Spec.After1900 k) env w l) :
    (Spec.laterStart k w).runCmds env' (l.map (Spec.moved k).cmd) = (Spec.moved k).world (w.runCmds env l) := by
  rw [← moved_start k w hw]
  refine map_program (moved_lawful k) henv (moved_starts k) l w (init_early w hw fun ep hep => ?_) hl
  obtain ⟨_, _, _, _, _, _, _, _, rfl⟩ := hw.epics ep hep
  intro p hp
  cases hp

/-- C83, without holidays and with zones that have no clock changes: the same program objects serve both runs. -/
theorem C83_fixed_zones_partial (k : ℤ) {env env' : Env} (henv : (Spec.moved k).RelEnv steady env env') (w : World) (hw : w.Init)
    (hz : ∀ ep ∈ w.epics, (∃ c, ep.zone.Fixed c) ∧ ep.holidays = [])
    (l : List Cmd) (hl : Spec.Program steady (Spec.After1900 k) env w l) :
    w.runCmds env' (l.map (Spec.moved k).cmd) = (Spec.moved k).world (w.runCmds env l) := by
  have h : Spec.laterStart k w = w := by
    have h1 : (w.epics.map fun e =>
        { e with zone := Spec.laterZone k e.zone, holidays := e.holidays.map (· + 7 * k) }) = w.epics := by
      conv_rhs => rw [← List.map_id w.epics]
      refine List.map_congr_left fun ep hep => ?_
      obtain ⟨⟨c, hc1, hc2⟩, hh⟩ := hz ep hep
      have hzone : Spec.laterZone k ep.zone = ep.zone := by
        unfold Spec.laterZone
        have ho : (fun u => ep.zone.off (u - Spec.weeks k)) = ep.zone.off := by
          funext u
          rw [hc1, hc1]
        have hr : (fun x => ep.zone.resolve (x - Spec.weeks k) + Spec.weeks k) = ep.zone.resolve := by
          funext x
          rw [hc2, hc2, sub_add_cancel]
        rw [ho, hr]
      have hhol : ep.holidays.map (· + 7 * k) = ep.holidays := by rw [hh]; rfl
      rw [hzone, hhol]
      rfl
    unfold Spec.laterStart
    rw [h1]
  have := C83_weeks_partial k henv w hw l hl
  rwa [h] at this

/-- C83, trades: in the later run trade `i` has the same direction, quantities, prices, results and statuses; its dates are `k`
weeks later. -/
theorem C83_trades_partial (k : ℤ) {env env' : Env} (henv : (Spec.moved k).RelEnv steady env env') (w : World) (hw : w.Init)
    (l : List Cmd) (hl : Spec.Program steady (Spec.After1900 k) env w l)
    (i : ℕ) (t : Trade) (ht : (w.runCmds env l).trades[i]? = some t) :
    ∃ t', ((Spec.laterStart k w).runCmds env' (l.map (Spec.moved k).cmd)).trades[i]? = some t' ∧
      t'.dt = Spec.later k t.dt ∧ t'.dir = t.dir ∧ t'.status = t.status ∧ t'.openQty = t.openQty ∧
      t'.openValue = t.openValue ∧ t'.curClose = t.curClose ∧ t'.openedQty = t.openedQty ∧ t'.result = t.result ∧
      t'.maxRes = t.maxRes ∧ t'.minRes = t.minRes ∧ t'.resultAvg = t.resultAvg ∧
      t'.closes.map (fun c => (c.closeValue, c.qty, c.dt)) =
        t.closes.map (fun c => (c.closeValue, c.qty, Spec.later k c.dt)) := by
  rw [C83_weeks_partial k henv w hw l hl]
  refine ⟨Spec.laterTrade k t, by rw [map_trade?, ht]; rfl, rfl, rfl, rfl, rfl, rfl, rfl, later_openedQty t, later_result t,
    rfl, rfl, ?_, ?_⟩
  · unfold Trade.resultAvg
    rw [later_result]
    rfl
  · unfold Spec.laterTrade
    simp only [List.map_map]
    rfl

/-- C83, strategies: in the later run result and profit factor are the same. -/
theorem C83_strategies_partial (k : ℤ) {env env' : Env} (henv : (Spec.moved k).RelEnv steady env env') (w : World) (hw : w.Init)
    (l : List Cmd) (hl : Spec.Program steady (Spec.After1900 k) env w l) (s : ℕ) :
    let own := Spec.tradesOf (w.runCmds env l) s
    let own' := Spec.tradesOf ((Spec.laterStart k w).runCmds env' (l.map (Spec.moved k).cmd)) s
    strategyResult own' .none = strategyResult own .none ∧ profitFactor own' .none = profitFactor own .none := by
  simp only
  have hof : Spec.tradesOf ((Spec.moved k).world (w.runCmds env l)) s =
      (Spec.tradesOf (w.runCmds env l) s).map (Spec.laterTrade k) := by
    unfold Spec.tradesOf
    rw [map_strategy?]
    rcases (w.runCmds env l).strategies[s]? with _ | st
    · rfl
    · simp only [Option.map_some]
      rw [List.map_filterMap]
      exact List.filterMap_congr (fun i _ => map_trade? _ i)
  rw [C83_weeks_partial k henv w hw l hl, hof]
  generalize Spec.tradesOf (w.runCmds env l) s = L
  constructor
  · unfold strategyResult TradesArg.resolve
    simp only [List.map_map]
    have h : L.map (Trade.result ∘ Spec.laterTrade k) = L.map Trade.result :=
      List.map_congr_left (fun t _ => later_result t)
    rw [h]
  · unfold profitFactor TradesArg.resolve
    simp only
    have h : pfSums (L.map (Spec.laterTrade k)) = pfSums L := by
      unfold pfSums
      rw [List.foldl_map]
      simp only [later_result]
    rw [h]

theorem later_getFrame (k : ℤ) (ep : Epic) (ref : String) (n : ℤ) :
    (Spec.laterEpic k ep).getFrame ref n = (ep.getFrame ref n).map (·.map (Spec.laterFrame k)) := by
  unfold Epic.getFrame
  have hg : (Spec.laterEpic k ep).frameSets.get? ref = (ep.frameSets.get? ref).map (Spec.laterFrameSet k) :=
    Dict.get?_map _ _ _
  rw [hg]
  rcases ep.frameSets.get? ref with _ | fs
  · rfl
  · simp only [Option.map_some, Except.map]
    unfold FrameSet.getItem Spec.laterFrameSet
    simp only
    rcases pyGet fs.frames ((n + 1) * -1) with _ | i
    · rfl
    · simp only [Option.bind_some]
      rw [List.getElem?_map]

/-- C83, frames: in the later run every frame the user can read starts and ends `k` weeks later and has the same number of
ticks and the same quotes. -/
theorem C83_frames_partial (k : ℤ) {env env' : Env} (henv : (Spec.moved k).RelEnv steady env env') (w : World) (hw : w.Init)
    (l : List Cmd) (hl : Spec.Program steady (Spec.After1900 k) env w l)
    (e : ℕ) (ep : Epic) (hep : (w.runCmds env l).epics[e]? = some ep) (ref : String) (n : ℤ) (f : Frame)
    (hf : ep.getFrame ref n = .ok (some f)) :
    ∃ ep' f', ((Spec.laterStart k w).runCmds env' (l.map (Spec.moved k).cmd)).epics[e]? = some ep' ∧
      ep'.getFrame ref n = .ok (some f') ∧ f'.periodStart = f.periodStart + Spec.weeks k ∧
      f'.periodEnd = f.periodEnd.map (· + Spec.weeks k) ∧ f'.nbTicks = f.nbTicks ∧
      (f'.first.value, f'.high.value, f'.low.value, f'.last.value) =
        (f.first.value, f.high.value, f.low.value, f.last.value) := by
  rw [C83_weeks_partial k henv w hw l hl]
  refine ⟨Spec.laterEpic k ep, Spec.laterFrame k f, by rw [map_epic?, hep]; rfl, ?_, rfl, rfl, rfl, rfl⟩
  rw [later_getFrame, hf]
  rfl

/-- C83, callbacks: in the later run the same callbacks are called in the same order. -/
theorem C83_callbacks_partial (k : ℤ) {env env' : Env} (henv : (Spec.moved k).RelEnv steady env env') (w : World) (hw : w.Init)
    (l : List Cmd) (hl : Spec.Program steady (Spec.After1900 k) env w l) :
    ((Spec.laterStart k w).runCmds env' (l.map (Spec.moved k).cmd)).log.filterMap
        (fun | .notify s e cb => some (s, e, cb) | .accepted _ _ => none) =
      (w.runCmds env l).log.filterMap (fun | .notify s e cb => some (s, e, cb) | .accepted _ _ => none) := by
  rw [C83_weeks_partial k henv w hw l hl]
  unfold Spec.Mapping.world
  simp only
  rw [List.filterMap_map]
  refine List.filterMap_congr fun x _ => ?_
  rcases x <;> rfl

/-- C83, exceptions: after such a program, a further command raises in the later run what it raises in the first run. -/
theorem C83_exceptions_partial (k : ℤ) {env env' : Env} (henv : (Spec.moved k).RelEnv steady env env') (w : World)
    (hw : w.Init) (l : List Cmd) (hl : Spec.Program steady (Spec.After1900 k) env w l) (x : Cmd) (hx : steady.cmd x) :
    (((Spec.laterStart k w).runCmds env' (l.map (Spec.moved k).cmd)).exec env' ((Spec.moved k).cmd x)).2 =
      ((w.runCmds env l).exec env x).2 := by
  have hE : Early steady w := init_early w hw fun ep hep => by
    obtain ⟨_, _, _, _, _, _, _, _, rfl⟩ := hw.epics ep hep
    intro p hp
    cases hp
  have hA := allowed_program (moved_lawful k) (moved_starts k) henv l w hE hl
  rw [C83_weeks_partial k henv w hw l hl, map_exec (moved_lawful k) henv _ hA x hx]
  rfl

/-- C83: callbacks that decide on prices and pause for a while take the same decisions in any week, so the theorems cover them. -/
def Spec.trendAndPause (q : ℤ) (ref : String) (d : ℤ) : Env := fun s cb e w =>
  match cb with
  | .everyTickOpen =>
    match w.epics[e]? with
    | none => .done
    | some ep => match ep.getFrame ref 0 with
      | .ok (some f) =>
        .act (.openTrade e (some s) (some (if f.first.value < ep.lastTick.value then .buy else .sell)) q) fun _ _ =>
        .act (.pause s (some ⟨ep.lastTick.dt.utc + d, ep.lastTick.dt.wall + d, ep.lastTick.dt.tz⟩)) fun _ _ => .done
      | _ => .done
  | .marketClose => .act (.closeOpened s none) fun _ _ => .done
  | _ => .done

theorem C83_trend_partial (k q : ℤ) (ref : String) (d : ℤ) :
    (Spec.moved k).RelEnv steady (Spec.trendAndPause q ref d) (Spec.trendAndPause q ref d) := by
  intro s cb e w _
  unfold Spec.trendAndPause
  rcases cb
  · exact .act (.closeOpened s none) _ _ (fun _ _ _ => .done)
  · exact .done
  · simp only
    rw [map_epic?]
    rcases w.epics[e]? with _ | ep
    · exact .done
    · simp only [Option.map_some]
      have hg : ((Spec.moved k).epic ep).getFrame ref 0 = _ := later_getFrame k ep ref 0
      rw [hg]
      rcases ep.getFrame ref 0 with err | _ | f
      · exact .done
      · exact .done
      · simp only [Except.map, Option.map_some]
        refine .act (.openTrade e (some s) (some (if f.first.value < ep.lastTick.value then .buy else .sell)) q) _ _
          (fun _ _ _ => ?_)
        have hp : Spec.Mapping.op (Spec.moved k)
            (.pause s (some ⟨ep.lastTick.dt.utc + d, ep.lastTick.dt.wall + d, ep.lastTick.dt.tz⟩)) =
            .pause s (some ⟨((Spec.moved k).epic ep).lastTick.dt.utc + d, ((Spec.moved k).epic ep).lastTick.dt.wall + d,
              ((Spec.moved k).epic ep).lastTick.dt.tz⟩) := by
          unfold Spec.Mapping.op Spec.moved Spec.later Spec.laterEpic Spec.laterTick Spec.later
          simp only [Option.map_some]
          refine congrArg (fun x => Op.pause s (some x)) ?_
          simp only [DT.mk.injEq, and_true]
          constructor <;> ring
        rw [← hp]
        exact .act _ _ _ (fun _ _ _ => .done)
  · exact .done

end

/-! ## Concrete cases -/

/-- The end of a day: both epics get a tick, the market moves, then closes. -/
private def day : List Cmd :=
  [.tick 1 (Demo.tk 955 5 6), .tick 0 (Demo.tk 955 10 12), .addFrameSet 0 "UT1" Demo.minutes, .addStrategy 0 0,
   .tick 0 (Demo.tk 956 10 12), .tick 0 (Demo.tk 956 12 14), .tick 0 (Demo.tk 958 9 11),
   .tick 0 (Demo.tk 959 (25 / 2) 13), .tick 0 (Demo.tk 961 10 12)]

private theorem day_program (k : ℤ) (hk : 0 ≤ k) : letI := Arith.exact
    Spec.Program steady (Spec.After1900 k) (Spec.trendAndPause 3 "UT1" (2 * minUs)) Demo.world day := by
  letI := Arith.exact
  have h0 : midnight 1900 1 1 < Demo.monday + 955 * minUs := by decide +kernel
  have hk' : 0 ≤ Spec.weeks k := by unfold Spec.weeks; omega
  have hS : ∀ (ep : Epic) (a b), ep.zone.off = (fun _ => 0) → Spec.After1900 k ep.zone (Demo.tk 955 a b) := by
    intro ep a b hz
    unfold Spec.After1900 Demo.tk
    rw [hz]
    simp only
    exact ⟨h0, by omega, by omega, by omega⟩
  have h1 : Spec.EarlyCmd steady (Spec.After1900 k) Demo.world (.tick 1 (Demo.tk 955 5 6)) := by
    refine ⟨trivial, fun ep hep => ?_⟩
    obtain rfl : Epic.new "E1" Zone.utc 0 (23 * hourUs) [] [] 0 = ep := Option.some.inj hep
    exact ⟨hS _ 5 6 rfl, Or.inl rfl⟩
  have h2 : Spec.EarlyCmd steady (Spec.After1900 k)
      (Demo.world.exec (Spec.trendAndPause 3 "UT1" (2 * minUs)) (.tick 1 (Demo.tk 955 5 6))).1
      (.tick 0 (Demo.tk 955 10 12)) := by
    refine ⟨trivial, fun ep hep => ?_⟩
    have he : (Demo.world.exec (Spec.trendAndPause 3 "UT1" (2 * minUs)) (.tick 1 (Demo.tk 955 5 6))).1.epics[0]? =
        some (Epic.new "E0" Zone.utc (8 * hourUs) (16 * hourUs) [] [] 0) := by with_unfolding_all rfl
    obtain rfl : Epic.new "E0" Zone.utc (8 * hourUs) (16 * hourUs) [] [] 0 = ep := Option.some.inj (he.symm.trans hep)
    exact ⟨hS _ 10 12 rfl, Or.inl rfl⟩
  refine Or.inr ⟨h1, Or.inr ⟨h2, Or.inl ⟨?_, ?_⟩⟩⟩
  · unfold Spec.AllSeen
    decide +kernel
  · intro y hy
    simp only [List.mem_cons, List.not_mem_nil, or_false] at hy
    rcases hy with rfl | rfl | rfl | rfl | rfl | rfl | rfl
    · exact ⟨by decide, by decide⟩
    all_goals trivial

/-- C83: that program meets the hypotheses: the same results ten weeks later. -/
example : letI := Arith.exact
    strategyResult (Spec.tradesOf ((Spec.laterStart 10 Demo.world).runCmds (Spec.trendAndPause 3 "UT1" (2 * minUs))
      (day.map (Spec.moved 10).cmd)) 0) .none =
    strategyResult (Spec.tradesOf (Demo.world.runCmds (Spec.trendAndPause 3 "UT1" (2 * minUs)) day) 0) .none := by
  letI := Arith.exact
  exact (C83_strategies_partial 10 (C83_trend_partial 10 3 "UT1" (2 * minUs)) Demo.world Demo.world_init day
    (day_program 10 (by decide)) 0).1

/-- C83: the trades of that day and of the day ten weeks later. -/
example : letI := Arith.exact
    let env := Spec.trendAndPause 3 "UT1" (2 * minUs)
    let own := Spec.tradesOf (Demo.world.runCmds env day) 0
    let own' := Spec.tradesOf (Demo.world.runCmds env (day.map (Spec.moved 10).cmd)) 0
    own.map Trade.result = [-6, -9] ∧ own'.map Trade.result = own.map Trade.result ∧
    own'.map (fun t => t.dt.utc) = own.map (fun t => t.dt.utc + 70 * dayUs) := by
  letI := Arith.exact
  decide +kernel

/-- C83 is false for months: the ticks of 6 and 20 January share a frame, those of 20 January and 3 February do not. -/
theorem C83_false : letI := Arith.exact
    let l : List Cmd := [.addFrameSet 0 "M" ⟨.month, 1, 10, [], [], []⟩, .tick 0 (Demo.tk 0 10 12),
      .tick 0 (Spec.laterTick 2 (Demo.tk 0 10 12))]
    let frames := fun w : World => w.epics.map fun ep => ep.frameSets.map fun p => p.2.frames
    frames (Demo.world.runCmds Demo.quiet l) = [[[0]], []] ∧
    frames (Demo.world.runCmds Demo.quiet (l.map (Spec.moved 2).cmd)) = [[[0, 1]], []] := by
  letI := Arith.exact
  decide +kernel

/-- C83 is false for years likewise: 6 January and 21 December 2020, and two weeks later. -/
theorem C83_years_false : letI := Arith.exact
    let l : List Cmd := [.addFrameSet 0 "Y" ⟨.year, 1, 10, [], [], []⟩, .tick 0 (Demo.tk 0 10 12),
      .tick 0 (Spec.laterTick 50 (Demo.tk 0 10 12))]
    let frames := fun w : World => w.epics.map fun ep => ep.frameSets.map fun p => p.2.frames
    frames (Demo.world.runCmds Demo.quiet l) = [[[0]], []] ∧
    frames (Demo.world.runCmds Demo.quiet (l.map (Spec.moved 2).cmd)) = [[[0, 1]], []] := by
  letI := Arith.exact
  decide +kernel

/-- Whole weeks are needed: one day later the Friday market is a Saturday market, which is closed. -/
theorem C83_days_false : letI := Arith.exact
    let friday : ℤ := Demo.monday + 4 * dayUs + 10 * hourUs
    let at_ := fun d : ℤ => (⟨⟨friday + d, friday + d, 0⟩, 10, 12⟩ : Tick)
    let opens := fun w : World => w.epics.map Epic.marketOpen
    opens (Demo.world.runCmds Demo.quiet [.tick 0 (at_ 0)]) = [true, false] ∧
    opens (Demo.world.runCmds Demo.quiet [.tick 0 (at_ dayUs)]) = [false, false] := by
  letI := Arith.exact
  decide +kernel

end Estrade
