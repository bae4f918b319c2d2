import Verif.Props.Scaling
import Verif.Indicators
import Verif.Lemmas.Dicts
import Verif.Lemmas.WorldLog
import Verif.Lemmas.Fills

/-!
# C80: only price differences matter
(estrade/tick.py, estrade/graph/*.py, estrade/trade.py, estrade/epic.py)

Two runs of a whole program, the second with the same amount added to every price.
-/

set_option linter.style.haveILetI false
set_option linter.unusedSectionVars false
set_option autoImplicit false

namespace Estrade

/-- Spec: an even number of cents. -/
def Spec.EvenCents (c : ℚ) : Prop := ∃ n : ℤ, c = n / 50

/-- Spec: the tick with `c` added to both quotes. -/
def Spec.shiftTick (c : ℚ) (t : Tick) : Tick := { t with bid := t.bid + c, ask := t.ask + c }

/-- Spec: the indicator value `c` higher: ticks and closes move, changes and RSI stay. -/
def Spec.shiftVal (c : ℚ) (v : IndVal) : IndVal :=
  { v with
    first := Spec.shiftTick c v.first
    high := Spec.shiftTick c v.high
    low := Spec.shiftTick c v.low
    last := Spec.shiftTick c v.last
    closes := v.closes.map (· + c) }

/-- Spec: the frame `c` higher. -/
def Spec.shiftFrame (c : ℚ) (f : Frame) : Frame :=
  { f with
    first := Spec.shiftTick c f.first
    high := Spec.shiftTick c f.high
    low := Spec.shiftTick c f.low
    last := Spec.shiftTick c f.last
    inds := f.inds.map (fun p => (p.1, p.2.map (Spec.shiftVal c))) }

/-- Spec: the frame set `c` higher. -/
def Spec.shiftFrameSet (c : ℚ) (fs : FrameSet) : FrameSet := { fs with heap := fs.heap.map (Spec.shiftFrame c) }

/-- Spec: the epic `c` higher. -/
def Spec.shiftEpic (c : ℚ) (e : Epic) : Epic :=
  { e with
    lastTick := Spec.shiftTick c e.lastTick
    frameSets := e.frameSets.map (fun p => (p.1, Spec.shiftFrameSet c p.2)) }

/-- Spec: the close `c` higher. -/
def Spec.shiftClose (c : ℚ) (x : TradeClose) : TradeClose := { x with closeValue := x.closeValue + c }

/-- Spec: the trade `c` higher: prices move, results stay. -/
def Spec.shiftTrade (c : ℚ) (t : Trade) : Trade :=
  { t with
    openValue := t.openValue + c
    curClose := t.curClose + c
    closes := t.closes.map (Spec.shiftClose c) }

/-- Spec: the history entry `c` higher. -/
def Spec.shiftEvent (c : ℚ) : Event → Event
  | .accepted e t => .accepted e (Spec.shiftTick c t)
  | .notify s e cb => .notify s e cb

/-- Spec: the whole world `c` higher. -/
def Spec.shiftWorld (c : ℚ) (w : World) : World :=
  { w with
    epics := w.epics.map (Spec.shiftEpic c)
    trades := w.trades.map (Spec.shiftTrade c)
    log := w.log.map (Spec.shiftEvent c) }

/-- Spec: the operation with prices `c` higher. -/
def Spec.shiftOp (c : ℚ) : Op → Op
  | .update t v => .update t (v + c)
  | .close t v dt q => .close t (v + c) dt q
  | o => o

/-- Spec: the command with prices `c` higher. -/
def Spec.shiftCmd (c : ℚ) : Cmd → Cmd
  | .tick e t => .tick e (Spec.shiftTick c t)
  | .op o => .op (Spec.shiftOp c o)
  | .addFrameSet e ref fs => .addFrameSet e ref (Spec.shiftFrameSet c fs)
  | .addStrategy e s => .addStrategy e s
  | .addIndicator e ref ind => .addIndicator e ref ind

/-- Spec: user code that takes the same decisions in the world `c` higher. -/
inductive Spec.ShiftedProg (c : ℚ) : Prog → Prog → Prop
  | done : Spec.ShiftedProg c .done .done
  | raise (e : PyErr) : Spec.ShiftedProg c (.raise e) (.raise e)
  | act (o : Op) (f f' : World → Option PyErr → Prog)
      (h : ∀ w r, Spec.ShiftedProg c (f w r) (f' (Spec.shiftWorld c w) r)) :
      Spec.ShiftedProg c (.act o f) (.act (Spec.shiftOp c o) f')

/-- Spec: callbacks that take the same decisions in the world `c` higher. -/
def Spec.ShiftedEnv (c : ℚ) (env env' : Env) : Prop :=
  ∀ s cb e w, Spec.ShiftedProg c (env s cb e w) (env' s cb e (Spec.shiftWorld c w))

/-- Spec: no quote of the tick is 0, before or after the shift. -/
def Spec.NoZero (c : ℚ) (t : Tick) : Prop := t.bid ≠ 0 ∧ t.bid + c ≠ 0 ∧ t.ask ≠ 0 ∧ t.ask + c ≠ 0

section
variable [Arith]

/-! ## Numbers -/

section
variable {c : ℚ} (hc : Spec.EvenCents c) (hE : Exact)

include hc in
theorem cent_add_even (x : ℚ) : cent (x + c) = cent x + c := by
  obtain ⟨n, rfl⟩ := hc
  have h : rhe ((x + n / 50) * 100) = rhe (x * 100) + 2 * n := by
    have e : (x + n / 50) * 100 - ((rhe (x * 100) + 2 * n : ℤ) : ℚ) = x * 100 - rhe (x * 100) := by push_cast; ring
    refine rhe_unique _ _ ?_ ?_
    · rw [e]; exact rhe_abs _
    · rw [e]
      intro ht
      have := rhe_tie _ ht
      omega
  unfold cent
  rw [h]
  push_cast
  ring

include hE in
theorem shift_spread (t : Tick) : (Spec.shiftTick c t).spread = t.spread := by
  unfold Tick.spread Spec.shiftTick
  simp only
  rw [fsub_exact hE, fsub_exact hE]
  congr 1
  ring

include hc hE in
theorem shift_value (t : Tick) : (Spec.shiftTick c t).value = t.value + c := by
  unfold Tick.value
  rw [shift_spread hE, rnd_exact hE, rnd_exact hE, fadd_exact hE, fadd_exact hE, ← cent_add_even hc]
  congr 1
  unfold Spec.shiftTick
  simp only
  ring

/-! ## Frames and indicator values -/

theorem shift_get (f : Frame) (ref : String) :
    (Spec.shiftFrame c f).get ref = (f.get ref).map (Spec.shiftVal c) := by
  unfold Frame.get Spec.shiftFrame
  simp only
  rw [Dict.get?_map]
  rcases f.inds.get? ref with _ | _ | v <;> rfl

theorem shift_setInd (f : Frame) (ref : String) (v : Option IndVal) :
    { Spec.shiftFrame c f with inds := (Spec.shiftFrame c f).inds.set ref (v.map (Spec.shiftVal c)) } =
      Spec.shiftFrame c { f with inds := f.inds.set ref v } := by
  unfold Spec.shiftFrame
  simp only
  rw [Dict.set_map (fun v : Option IndVal => v.map (Spec.shiftVal c))]

theorem shift_prevValue (heap : List Frame) (ref : String) (n : ℕ) : ∀ i : Option ℕ,
    prevValue (heap.map (Spec.shiftFrame c)) ref n i = (prevValue heap ref n i).map (Spec.shiftVal c) := by
  induction n with
  | zero => intro i; rfl
  | succ n ih =>
    intro i
    rcases i with _ | i
    · rfl
    · unfold prevValue
      rw [List.getElem?_map]
      rcases heap[i]? with _ | f
      · rfl
      · simp only [Option.map_some]
        rw [shift_get]
        rcases f.get ref with _ | v
        · exact ih f.prev
        · rfl

include hc hE in
theorem shift_extendedCloses (v : IndVal) (f : Frame) :
    extendedCloses (Spec.shiftVal c v) (Spec.shiftFrame c f) = (extendedCloses v f).map (· + c) := by
  unfold extendedCloses
  rw [List.map_append]
  congr 1
  simp only [List.map_cons, List.map_nil]
  rw [← shift_value hc hE]
  rfl

include hc hE in
theorem shift_extendedChanges (heap : List Frame) (v : IndVal) (f : Frame) :
    extendedChanges (heap.map (Spec.shiftFrame c)) (Spec.shiftVal c v) (Spec.shiftFrame c f) =
      extendedChanges heap v f := by
  unfold extendedChanges
  have hp : (Spec.shiftFrame c f).prev = f.prev := rfl
  rw [hp]
  rcases f.prev with _ | p
  · rfl
  · simp only
    rw [List.getElem?_map]
    rcases heap[p]? with _ | g
    · rfl
    · simp only [Option.map_some]
      have h1 : (Spec.shiftFrame c f).last.value = f.last.value + c := shift_value hc hE _
      have h2 : (Spec.shiftFrame c g).last.value = g.last.value + c := shift_value hc hE _
      rw [h1, h2, fsub_exact hE, fsub_exact hE, add_sub_add_right_eq_sub]
      rfl

include hc hE in
theorem shift_prevCloses (heap : List Frame) (p : IndVal) :
    prevCloses (heap.map (Spec.shiftFrame c)) (Spec.shiftVal c p) = (prevCloses heap p).map (·.map (· + c)) := by
  unfold prevCloses
  have hk : (Spec.shiftVal c p).ind = p.ind := rfl
  have hf : (Spec.shiftVal c p).frame = p.frame := rfl
  rw [hk, hf, List.getElem?_map]
  rcases p.ind.kind <;> try rfl
  rcases heap[p.frame]? with _ | g
  · rfl
  · simp only [Option.map_some]
    rw [shift_extendedCloses hc hE]
    rfl

include hc hE in
theorem shift_prevChanges (heap : List Frame) (p : IndVal) :
    prevChanges (heap.map (Spec.shiftFrame c)) (Spec.shiftVal c p) = prevChanges heap p := by
  unfold prevChanges
  have hk : (Spec.shiftVal c p).ind = p.ind := rfl
  have hf : (Spec.shiftVal c p).frame = p.frame := rfl
  rw [hk, hf, List.getElem?_map]
  rcases p.ind.kind <;> try rfl
  rcases heap[p.frame]? with _ | g
  · rfl
  · simp only [Option.map_some]
    rw [shift_extendedChanges hc hE]

include hc hE in
theorem shift_updateRsi (heap : List Frame) (f : Frame) (n : ℤ) (v : IndVal) :
    updateRsi (heap.map (Spec.shiftFrame c)) (Spec.shiftFrame c f) n (Spec.shiftVal c v) =
      (updateRsi heap f n v).map (Spec.shiftVal c) := by
  unfold updateRsi
  rw [shift_extendedChanges hc hE]
  simp only
  split_ifs
  · rcases buildRsi n (extendedChanges heap v f) with e | r <;> rfl
  · rfl

theorem sliceFrom_map {α β : Type} (g : α → β) (l : List α) (k : ℤ) :
    sliceFrom (l.map g) k = (sliceFrom l k).map g := by
  unfold sliceFrom
  split_ifs <;> simp

include hc hE in
theorem shift_newVal (heap : List Frame) (ind : Indicator) (id : ℕ) (f : Frame) :
    IndVal.new (heap.map (Spec.shiftFrame c)) ind id (Spec.shiftFrame c f) =
      (IndVal.new heap ind id f).map (Spec.shiftVal c) := by
  unfold IndVal.new
  have hb : IndVal.base ind id (Spec.shiftFrame c f) = Spec.shiftVal c (IndVal.base ind id f) := rfl
  have hp : (Spec.shiftFrame c f).prev = f.prev := rfl
  have hl : (heap.map (Spec.shiftFrame c)).length = heap.length := List.length_map _
  rw [hb, hp, hl, shift_prevValue]
  rcases ind.kind with _ | _ | _ | _ | _ | mp | ⟨q, rp⟩ <;> try rfl
  · simp only
    rcases prevValue heap ind.ref heap.length f.prev with _ | p
    · simp only [Option.map_none, bind, Except.bind]
      have h0 : sliceFrom ([] : List ℚ) ((mp - 1) * -1) = [] := by
        unfold sliceFrom
        split_ifs <;> simp
      rw [h0]
      rfl
    · simp only [Option.map_some]
      rw [shift_prevCloses hc hE]
      rcases prevCloses heap p with e | l
      · rfl
      · simp only [Except.map, bind, Except.bind]
        rw [sliceFrom_map]
        rfl
  · rcases rp with _ | n
    · rfl
    · simp only
      split_ifs
      · rfl
      · rcases prevValue heap ind.ref heap.length f.prev with _ | p
        · simp only [Option.map_none, bind, Except.bind]
          rw [← shift_updateRsi hc hE]
          rfl
        · simp only [Option.map_some]
          rw [shift_prevChanges hc hE]
          rcases prevChanges heap p with e | l
          · rfl
          · simp only [bind, Except.bind]
            rw [← shift_updateRsi hc hE]
            rfl

include hc hE in
theorem shift_build (heap : List Frame) (ind : Indicator) (id : ℕ) (f : Frame) (mo : Bool) :
    ind.build (heap.map (Spec.shiftFrame c)) id (Spec.shiftFrame c f) mo =
      (ind.build heap id f mo).map (Option.map (Spec.shiftVal c)) := by
  unfold Indicator.build
  rw [shift_newVal hc hE]
  split_ifs
  · rcases IndVal.new heap ind id f with e | v <;> rfl
  · rfl

include hc hE in
theorem shift_trackVal (v : IndVal) (tick : Tick) (mo : Bool) :
    (Spec.shiftVal c v).track (Spec.shiftTick c tick) mo = Spec.shiftVal c (v.track tick mo) := by
  unfold IndVal.track
  have h1 : (Spec.shiftVal c v).high.value = v.high.value + c := shift_value hc hE _
  have h2 : (Spec.shiftVal c v).low.value = v.low.value + c := shift_value hc hE _
  have hk : (Spec.shiftVal c v).ind = v.ind := rfl
  simp only [h1, h2, hk, shift_value hc hE tick, add_lt_add_iff_right]
  split_ifs <;> rfl

include hc hE in
theorem shift_valTick (heap : List Frame) (f : Frame) (v : IndVal) (tick : Tick) (mo : Bool) :
    (Spec.shiftVal c v).onNewTick (heap.map (Spec.shiftFrame c)) (Spec.shiftFrame c f) (Spec.shiftTick c tick) mo =
      (v.onNewTick heap f tick mo).map (Spec.shiftVal c) := by
  unfold IndVal.onNewTick
  have hk : (Spec.shiftVal c v).ind = v.ind := rfl
  rw [hk, shift_trackVal hc hE]
  rcases v.ind.kind with _ | _ | _ | _ | _ | _ | ⟨q, _ | n⟩ <;> try rfl
  exact shift_updateRsi hc hE heap f n _

include hc hE in
theorem shift_trackFrame (f : Frame) (tick : Tick) :
    (Spec.shiftFrame c f).track (Spec.shiftTick c tick) = Spec.shiftFrame c (f.track tick) := by
  unfold Frame.track
  have h1 : (Spec.shiftFrame c f).high.value = f.high.value + c := shift_value hc hE _
  have h2 : (Spec.shiftFrame c f).low.value = f.low.value + c := shift_value hc hE _
  simp only [h1, h2, shift_value hc hE tick, add_lt_add_iff_right]
  split_ifs <;> rfl

include hc hE in
theorem shift_upsertOne (heap : List Frame) (id : ℕ) (tick : Tick) (mo : Bool) (f : Frame) (p : String × Indicator) :
    upsertOne (heap.map (Spec.shiftFrame c)) id (Spec.shiftTick c tick) mo (Spec.shiftFrame c f) p =
      (upsertOne heap id tick mo f p).map (Spec.shiftFrame c) := by
  unfold upsertOne
  rw [shift_get]
  rcases f.get p.1 with _ | v
  · simp only [Option.map_none]
    rw [shift_build hc hE]
    rcases p.2.build heap id f mo with e | nv
    · rfl
    · simp only [Except.map, bind, Except.bind]
      rw [shift_setInd]
  · simp only [Option.map_some]
    rw [shift_valTick hc hE]
    rcases v.onNewTick heap f tick mo with e | v'
    · rfl
    · simp only [Except.map, bind, Except.bind]
      exact congrArg Except.ok (shift_setInd f p.1 (some v'))

include hc hE in
theorem shift_upsert (heap : List Frame) (id : ℕ) (tick : Tick) (mo : Bool) (d : Dict Indicator) : ∀ f : Frame,
    upsert (heap.map (Spec.shiftFrame c)) id (Spec.shiftTick c tick) mo d (Spec.shiftFrame c f) =
      (upsert heap id tick mo d f).map (Spec.shiftFrame c) := by
  induction d with
  | nil => intro f; rfl
  | cons p d ih =>
    intro f
    unfold upsert at ih ⊢
    simp only [List.foldlM_cons]
    rw [shift_upsertOne hc hE]
    rcases upsertOne heap id tick mo f p with e | f'
    · rfl
    · exact ih f'

include hc hE in
theorem shift_feedOne (heap : List Frame) (id : ℕ) (tick : Tick) (mo : Bool) (f : Frame) (p : String × Indicator) :
    feedOne (heap.map (Spec.shiftFrame c)) id (Spec.shiftTick c tick) mo (Spec.shiftFrame c f) p =
      (Spec.shiftFrame c (feedOne heap id tick mo f p).1, (feedOne heap id tick mo f p).2) := by
  unfold feedOne
  rw [shift_get]
  rcases f.get p.1 with _ | v
  · simp only [Option.map_none]
    rw [shift_build hc hE]
    rcases p.2.build heap id f mo with e | nv
    · rfl
    · simp only [Except.map]
      rw [shift_setInd]
  · simp only [Option.map_some]
    rw [shift_valTick hc hE, shift_trackVal hc hE]
    rcases v.onNewTick heap f tick mo with e | v'
    · exact congrArg (·, some e) (shift_setInd f p.1 (some (v.track tick mo)))
    · exact congrArg (·, none) (shift_setInd f p.1 (some v'))

include hc hE in
theorem shift_feedInds (heap : List Frame) (id : ℕ) (tick : Tick) (mo : Bool) (d : Dict Indicator) : ∀ f : Frame,
    feedInds (heap.map (Spec.shiftFrame c)) id (Spec.shiftTick c tick) mo d (Spec.shiftFrame c f) =
      (Spec.shiftFrame c (feedInds heap id tick mo d f).1, (feedInds heap id tick mo d f).2) := by
  induction d with
  | nil => intro f; rfl
  | cons p d ih =>
    intro f
    unfold feedInds
    rw [shift_feedOne hc hE]
    rcases feedOne heap id tick mo f p with ⟨f', _ | e⟩
    · exact ih f'
    · rfl

theorem shift_feedClean (max : ℤ) (l : List ℕ) : ∀ heap : List Frame,
    feedClean max (heap.map (Spec.shiftFrame c)) l =
      (((feedClean max heap l).1.1.map (Spec.shiftFrame c), (feedClean max heap l).1.2), (feedClean max heap l).2) := by
  induction l with
  | nil => intro heap; rfl
  | cons a l ih =>
    intro heap
    rcases l with _ | ⟨b, rest⟩
    · rfl
    · unfold feedClean
      simp only
      split_ifs
      · rw [map_modify_comm (Spec.shiftFrame c) (fun f => { f with prev := none }) _ (fun f => rfl),
          map_modify_comm (Spec.shiftFrame c) (fun f => { f with next := none }) _ (fun f => rfl)]
        exact ih _
      · rfl

theorem shift_linkNext (heap : List Frame) (cur : Option ℕ) (id : ℕ) :
    linkNext (heap.map (Spec.shiftFrame c)) cur id = (linkNext heap cur id).map (Spec.shiftFrame c) := by
  unfold linkNext
  rcases cur with _ | i
  · rfl
  · exact map_modify_comm (Spec.shiftFrame c) (fun f => { f with next := some id }) _ (fun f => rfl) heap i

/-- Spec: outcome of a call on a frame set, `c` higher. -/
def Spec.shiftFed (c : ℚ) (r : FrameSet × Option PyErr) : FrameSet × Option PyErr := (Spec.shiftFrameSet c r.1, r.2)

include hc hE in
theorem shift_feedCreate (fs : FrameSet) (x : Ctx) (tick : Tick) (ps : ℤ) (pe : Option ℤ) :
    (Spec.shiftFrameSet c fs).feedCreate x (Spec.shiftTick c tick) ps pe =
      Spec.shiftFed c (fs.feedCreate x tick ps pe) := by
  unfold FrameSet.feedCreate
  have hh : (Spec.shiftFrameSet c fs).heap = fs.heap.map (Spec.shiftFrame c) := rfl
  have hl : (fs.heap.map (Spec.shiftFrame c)).length = fs.heap.length := List.length_map _
  have hf : (Spec.shiftFrameSet c fs).frames = fs.frames := rfl
  have hi : (Spec.shiftFrameSet c fs).indicators = fs.indicators := rfl
  have hm : (Spec.shiftFrameSet c fs).maxFrames = fs.maxFrames := rfl
  have hn : Frame.fresh (Spec.shiftTick c tick) ps pe fs.frames.getLast? =
      Spec.shiftFrame c (Frame.fresh tick ps pe fs.frames.getLast?) := rfl
  simp only [hh, hl, hf, hi, hm, hn]
  rw [shift_upsert hc hE]
  rcases upsert fs.heap fs.heap.length tick x.marketOpen fs.indicators (Frame.fresh tick ps pe fs.frames.getLast?)
    with e | f
  · rfl
  · simp only [Except.map]
    have happ : linkNext (fs.heap.map (Spec.shiftFrame c)) fs.frames.getLast? fs.heap.length ++ [Spec.shiftFrame c f] =
        (linkNext fs.heap fs.frames.getLast? fs.heap.length ++ [f]).map (Spec.shiftFrame c) := by
      rw [shift_linkNext, List.map_append]; rfl
    rw [happ, shift_feedClean]
    rfl

theorem shift_current (fs : FrameSet) :
    (Spec.shiftFrameSet c fs).current = fs.current.map (fun p => (p.1, Spec.shiftFrame c p.2)) := by
  unfold FrameSet.current
  have hh : (Spec.shiftFrameSet c fs).heap = fs.heap.map (Spec.shiftFrame c) := rfl
  have hf : (Spec.shiftFrameSet c fs).frames = fs.frames := rfl
  rw [hh, hf]
  rcases fs.frames.getLast? with _ | i
  · rfl
  · simp only
    rw [List.getElem?_map]
    rcases fs.heap[i]? with _ | f <;> rfl

include hc hE in
theorem shift_feedFill (x : Ctx) (ps : ℤ) (n : ℕ) : ∀ fs : FrameSet,
    feedFill x ps n (Spec.shiftFrameSet c fs) = Spec.shiftFed c (feedFill x ps n fs) := by
  induction n with
  | zero =>
    intro fs
    unfold feedFill
    rw [shift_current]
    rcases fs.current with _ | ⟨i, f⟩
    · rfl
    · simp only [Option.map_some]
      have hp : (Spec.shiftFrame c f).periodEnd = f.periodEnd := rfl
      rw [hp]
      rcases f.periodEnd with _ | pe
      · rfl
      · simp only
        split_ifs <;> rfl
  | succ n ih =>
    intro fs
    unfold feedFill
    rw [shift_current]
    rcases fs.current with _ | ⟨i, f⟩
    · rfl
    · simp only [Option.map_some]
      have hp : (Spec.shiftFrame c f).periodEnd = f.periodEnd := rfl
      have hlast : (Spec.shiftFrame c f).last = Spec.shiftTick c f.last := rfl
      have hu : (Spec.shiftFrameSet c fs).unit = fs.unit := rfl
      have hq : (Spec.shiftFrameSet c fs).qty = fs.qty := rfl
      rw [hp, hlast, hu, hq]
      rcases f.periodEnd with _ | pe
      · rfl
      · simp only
        split_ifs
        · rw [shift_feedCreate hc hE]
          rcases fs.feedCreate x f.last pe (some (frameEnd x.zone fs.unit fs.qty pe)) with ⟨fs', _ | e⟩
          · exact ih fs'
          · rfl
        · rfl

theorem shift_fillFuel (fs : FrameSet) (ps : ℤ) : fillFuel (Spec.shiftFrameSet c fs) ps = fillFuel fs ps := by
  unfold fillFuel
  rw [shift_current]
  rcases fs.current with _ | ⟨i, f⟩ <;> rfl

include hc hE in
theorem shift_feed (fs : FrameSet) (x : Ctx) (tick : Tick) :
    (Spec.shiftFrameSet c fs).feed x (Spec.shiftTick c tick) = Spec.shiftFed c (fs.feed x tick) := by
  have hu : (Spec.shiftFrameSet c fs).unit = fs.unit := rfl
  have hq : (Spec.shiftFrameSet c fs).qty = fs.qty := rfl
  have hd : (Spec.shiftTick c tick).dt = tick.dt := rfl
  have hlast : (Spec.shiftFrameSet c fs).feedLast x (Spec.shiftTick c tick) = Spec.shiftFed c (fs.feedLast x tick) := by
    unfold FrameSet.feedLast
    rw [shift_current]
    rcases fs.current with _ | ⟨i, f⟩
    · rfl
    · simp only [Option.map_some]
      have hh : (Spec.shiftFrameSet c fs).heap = fs.heap.map (Spec.shiftFrame c) := rfl
      have hi : (Spec.shiftFrameSet c fs).indicators = fs.indicators := rfl
      rw [shift_trackFrame hc hE, hh, hi, shift_feedInds hc hE]
      unfold Spec.shiftFed Spec.shiftFrameSet
      simp only [List.map_set]
  have hover : (Spec.shiftFrameSet c fs).overTick x (Spec.shiftTick c tick) = fs.overTick x tick := by
    unfold FrameSet.overTick
    rw [shift_current, hq, hd]
    rcases fs.current with _ | ⟨i, f⟩ <;> rfl
  have htimed : (Spec.shiftFrameSet c fs).overTimed (Spec.shiftTick c tick) = fs.overTimed tick := by
    unfold FrameSet.overTimed
    rw [shift_current, hd]
    rcases fs.current with _ | ⟨i, f⟩ <;> rfl
  have hft : (Spec.shiftFrameSet c fs).feedTimed x (Spec.shiftTick c tick) = Spec.shiftFed c (fs.feedTimed x tick) := by
    unfold FrameSet.feedTimed
    rw [hu, hq, hd]
    rcases frameStart fs.unit fs.qty tick.dt.wall with e | ps
    · rfl
    · simp only
      rw [shift_fillFuel, shift_feedFill hc hE]
      have hu' : ∀ v : FrameSet, (Spec.shiftFrameSet c v).feedCreate x (Spec.shiftTick c tick) ps
          (some (frameEnd x.zone fs.unit fs.qty ps)) =
          Spec.shiftFed c (v.feedCreate x tick ps (some (frameEnd x.zone fs.unit fs.qty ps))) :=
        fun v => shift_feedCreate hc hE v x tick ps _
      rcases feedFill x ps (fillFuel fs ps) fs with ⟨fs', _ | e⟩
      · exact hu' fs'
      · rfl
  unfold FrameSet.feed
  rw [hu, hover, htimed, hlast, hft, hd, shift_feedCreate hc hE]
  split_ifs
  · rfl
  · rfl
  · rcases fs.overTimed tick with e | b
    · rfl
    · simp only
      split_ifs <;> rfl

include hc hE in
theorem shift_updateFrameSets (x : Ctx) (tick : Tick) (d : Dict FrameSet) :
    updateFrameSets x (Spec.shiftTick c tick) (d.map (fun p => (p.1, Spec.shiftFrameSet c p.2))) =
      ((updateFrameSets x tick d).1.map (fun p => (p.1, Spec.shiftFrameSet c p.2)), (updateFrameSets x tick d).2) := by
  induction d with
  | nil => rfl
  | cons p d ih =>
    obtain ⟨k, fs⟩ := p
    simp only [List.map_cons]
    unfold updateFrameSets
    rw [shift_feed hc hE]
    rcases fs.feed x tick with ⟨fs', _ | e⟩
    · simp only [Spec.shiftFed]
      rw [ih]
      rfl
    · rfl

include hc hE in
theorem shift_accept (ep : Epic) (tick : Tick) :
    (Spec.shiftEpic c ep).accept (Spec.shiftTick c tick) =
      (Spec.shiftEpic c (ep.accept tick).1, (ep.accept tick).2) := by
  unfold Epic.accept
  have h := shift_updateFrameSets hc hE
    ⟨ep.zone, some (({ ep with lastTick := tick } : Epic).isMarketOpen, ordOf tick.dt.wall)⟩ tick ep.frameSets
  have h' := congrArg (fun r : Dict FrameSet × Option PyErr => (({ Spec.shiftEpic c ep with
      lastTick := Spec.shiftTick c tick
      marketOpen := ({ ep with lastTick := tick } : Epic).isMarketOpen
      frameSets := r.1 } : Epic), r.2)) h
  exact h'

/-! ## Trades: any amount `c` -/

theorem shift_closedQty (t : Trade) : (Spec.shiftTrade c t).closedQty = t.closedQty := by
  unfold Trade.closedQty Spec.shiftTrade
  simp only [List.map_map]
  rfl

theorem shift_openedQty (t : Trade) : (Spec.shiftTrade c t).openedQty = t.openedQty := by
  unfold Trade.openedQty
  rw [shift_closedQty]
  rfl

theorem shift_closed (t : Trade) : (Spec.shiftTrade c t).closed = t.closed := by
  unfold Trade.closed
  rw [shift_openedQty]

include hE in
theorem shift_closeResult (d : Dir) (o : ℚ) (x : TradeClose) :
    closeResult d (o + c) (Spec.shiftClose c x) = closeResult d o x := by
  unfold closeResult
  have h : closeResultAvg d (o + c) (Spec.shiftClose c x) = closeResultAvg d o x := by
    unfold closeResultAvg Spec.shiftClose
    rcases d <;> simp only <;> rw [fsub_exact hE, fsub_exact hE, add_sub_add_right_eq_sub]
  rw [h]
  rfl

include hE in
theorem shift_closedResult (t : Trade) : (Spec.shiftTrade c t).closedResult = t.closedResult := by
  unfold Trade.closedResult Spec.shiftTrade
  simp only [List.map_map]
  congr 1
  exact List.map_congr_left fun x _ => shift_closeResult hE _ _ _

include hE in
theorem shift_openedResultAvg (t : Trade) : (Spec.shiftTrade c t).openedResultAvg = t.openedResultAvg := by
  unfold Trade.openedResultAvg
  rw [shift_closed]
  unfold Spec.shiftTrade
  rcases t.dir <;> simp only <;> rw [fsub_exact hE, fsub_exact hE, add_sub_add_right_eq_sub]

include hE in
theorem shift_result (t : Trade) : (Spec.shiftTrade c t).result = t.result := by
  unfold Trade.result Trade.openedResult
  rw [shift_openedResultAvg hE, shift_openedQty, shift_closedResult hE]

include hE in
theorem shift_new (d : Dir) (q : ℤ) (o : ℚ) (dt : DT) (e : ℕ) (x : ℚ) (h1 : x ≠ 0) (h2 : x + c ≠ 0) (s : Option ℕ)
    (st : Status) : Trade.new d q (o + c) dt e (some (x + c)) s st = Spec.shiftTrade c (Trade.new d q o dt e (some x) s st) := by
  have h := shift_result (c := c) hE ⟨e, s, d, q, [], o, x, 0, 0, dt, st⟩
  unfold Trade.new
  simp only [if_neg h1, if_neg h2]
  unfold Spec.shiftTrade at h ⊢
  simp only [List.map_nil] at h ⊢
  rw [h]

include hE in
theorem shift_openFromTick (tick : Tick) (hz : Spec.NoZero c tick) (e : ℕ) (d : Option Dir) (q : ℤ) (s : Option ℕ) :
    Trade.openFromTick (Spec.shiftTick c tick) e d q s = (Trade.openFromTick tick e d q s).map (Spec.shiftTrade c) := by
  obtain ⟨h1, h2, h3, h4⟩ := hz
  rcases d with _ | d
  · rfl
  · rcases d
    · exact congrArg Except.ok (shift_new hE .buy q tick.ask tick.dt e tick.bid h1 h2 s .created)
    · exact congrArg Except.ok (shift_new hE .sell q tick.bid tick.dt e tick.ask h3 h4 s .created)

include hE in
theorem shift_updateMinMax (t : Trade) : (Spec.shiftTrade c t).updateMinMax = Spec.shiftTrade c t.updateMinMax := by
  have h1 : (Spec.shiftTrade c t).maxRes < (Spec.shiftTrade c t).result ↔ t.maxRes < t.result := by
    rw [shift_result hE]; rfl
  have h3 : ∀ u : Trade, (Spec.shiftTrade c u).result < (Spec.shiftTrade c u).minRes ↔ u.result < u.minRes := by
    intro u
    rw [shift_result hE]; rfl
  unfold Trade.updateMinMax
  simp only [h1]
  have h4 : (if t.maxRes < t.result then { Spec.shiftTrade c t with maxRes := (Spec.shiftTrade c t).result }
      else Spec.shiftTrade c t) =
      Spec.shiftTrade c (if t.maxRes < t.result then { t with maxRes := t.result } else t) := by
    split_ifs
    · rw [shift_result hE]; rfl
    · rfl
  rw [h4]
  simp only [h3]
  generalize (if t.maxRes < t.result then { t with maxRes := t.result } else t) = u
  split_ifs
  · rw [shift_result hE]; rfl
  · rfl

include hE in
theorem shift_update (t : Trade) (v : ℚ) : (Spec.shiftTrade c t).update (v + c) = Spec.shiftTrade c (t.update v) := by
  unfold Trade.update
  rw [shift_closed]
  split_ifs
  · rfl
  · exact shift_updateMinMax hE { t with curClose := v }

include hE in
theorem shift_updateFromTick (t : Trade) (x : Tick) :
    (Spec.shiftTrade c t).updateFromTick (Spec.shiftTick c x) = Spec.shiftTrade c (t.updateFromTick x) := by
  unfold Trade.updateFromTick
  rw [← shift_update hE]
  have hd : (Spec.shiftTrade c t).dir = t.dir := rfl
  rw [hd]
  rcases t.dir <;> rfl

theorem shift_close (t : Trade) (v : ℚ) (dt : DT) (q : Option ℤ) :
    (Spec.shiftTrade c t).close (v + c) dt q = Spec.shiftTrade c (t.close v dt q) := by
  unfold Trade.close
  have h : (Spec.shiftTrade c t).closeQty q = t.closeQty q := by
    unfold Trade.closeQty
    rw [shift_openedQty]
  rw [h]
  unfold Spec.shiftTrade
  simp only [List.map_append]
  rfl

include hE in
theorem shift_closeFromTick (t : Trade) (x : Tick) (q : Option ℤ) :
    (Spec.shiftTrade c t).closeFromTick (Spec.shiftTick c x) q = Spec.shiftTrade c (t.closeFromTick x q) := by
  unfold Trade.closeFromTick
  simp only
  rw [shift_updateFromTick hE]
  exact shift_close (t.updateFromTick x) _ _ _

/-! ## Worlds -/

theorem shift_trade? (w : World) (i : ℕ) :
    (Spec.shiftWorld c w).trades[i]? = (w.trades[i]?).map (Spec.shiftTrade c) := List.getElem?_map ..

theorem shift_epic? (w : World) (i : ℕ) :
    (Spec.shiftWorld c w).epics[i]? = (w.epics[i]?).map (Spec.shiftEpic c) := List.getElem?_map ..

theorem shift_modify (w : World) (i : ℕ) (g g' : Trade → Trade)
    (h : ∀ t, g' (Spec.shiftTrade c t) = Spec.shiftTrade c (g t)) :
    { Spec.shiftWorld c w with trades := (Spec.shiftWorld c w).trades.modify i g' } =
      Spec.shiftWorld c { w with trades := w.trades.modify i g } := by
  unfold Spec.shiftWorld
  simp only
  rw [map_modify_comm _ g g' h]

theorem shift_openedTrades (w : World) (p : Provider) : (Spec.shiftWorld c w).openedTrades p = w.openedTrades p := by
  unfold World.openedTrades
  refine List.filter_congr fun i _ => ?_
  rw [shift_trade?]
  rcases w.trades[i]? with _ | t
  · rfl
  · simp only [Option.map_some]
    rw [shift_closed]

include hE in
theorem shift_closeOn (w : World) (p i : ℕ) (q : Option ℤ) :
    (Spec.shiftWorld c w).closeOn p i q = (w.closeOn p i q).map (Spec.shiftWorld c) := by
  unfold World.closeOn
  rw [shift_trade?]
  rcases w.trades[i]? with _ | t
  · rfl
  · simp only [Option.map_some]
    have he : (Spec.shiftTrade c t).epic = t.epic := rfl
    rw [he, shift_epic?]
    rcases w.epics[t.epic]? with _ | e
    · rfl
    · simp only [Except.map, Option.map_some]
      have ht : (Spec.shiftEpic c e).lastTick = Spec.shiftTick c e.lastTick := rfl
      rw [ht, shift_closeFromTick hE]
      have hl : (Spec.shiftTrade c t).closes.length = t.closes.length := by
        unfold Spec.shiftTrade; simp
      rw [hl]
      unfold World.setTrade World.modProvider Spec.shiftWorld
      simp

include hE in
theorem shift_netLoop (p : ℕ) (l : List ℕ) : ∀ (w : World) (new : Trade),
    netLoop p (Spec.shiftWorld c w) (Spec.shiftTrade c new) l =
      (netLoop p w new l).map (fun r => (Spec.shiftWorld c r.1, Spec.shiftTrade c r.2)) := by
  induction l with
  | nil => intro w new; rfl
  | cons i rest ih =>
    intro w new
    unfold netLoop
    rw [shift_trade?]
    rcases w.trades[i]? with _ | t
    · rfl
    · simp only [Option.map_some]
      have h1 : ((Spec.shiftTrade c t).dir = (Spec.shiftTrade c new).dir.opposite) = (t.dir = new.dir.opposite) := rfl
      have h2 : ((Spec.shiftTrade c t).strategy ≠ (Spec.shiftTrade c new).strategy) = (t.strategy ≠ new.strategy) := rfl
      have h3 : min (Spec.shiftTrade c t).openedQty (Spec.shiftTrade c new).openQty = min t.openedQty new.openQty := by
        rw [shift_openedQty]; rfl
      simp only [h1, h2, h3]
      split_ifs
      · exact ih w new
      · rw [shift_closeOn hE]
        rcases w.closeOn p i (some (min t.openedQty new.openQty)) with err | w'
        · rfl
        · exact ih w' { new with openQty := new.openQty - min t.openedQty new.openQty }
      · exact ih w new

theorem shift_register (w : World) (p i : ℕ) (s : Option ℕ) :
    (Spec.shiftWorld c w).register p i s = Spec.shiftWorld c (w.register p i s) := by
  rcases s with _ | s <;> rfl

include hE in
theorem shift_providerOpen (w : World) (p : ℕ) (new : Trade) :
    (Spec.shiftWorld c w).providerOpen p (Spec.shiftTrade c new) = (w.providerOpen p new).map (Spec.shiftWorld c) := by
  unfold World.providerOpen
  have hp : (Spec.shiftWorld c w).providers = w.providers := rfl
  rw [hp]
  rcases w.providers[p]? with _ | pr
  · rfl
  · simp only
    have happ : ∀ (v : World) (t : Trade), ({ Spec.shiftWorld c v with
        trades := (Spec.shiftWorld c v).trades ++ [Spec.shiftTrade c t] } : World) =
        Spec.shiftWorld c { v with trades := v.trades ++ [t] } := by
      intro v t
      unfold Spec.shiftWorld
      simp
    have hlen : ∀ v : World, (Spec.shiftWorld c v).trades.length = v.trades.length := by
      intro v
      unfold Spec.shiftWorld
      simp
    have hs : (Spec.shiftTrade c new).strategy = new.strategy := rfl
    rcases pr.kind
    · simp only
      rw [shift_openedTrades, shift_netLoop hE]
      rcases netLoop p w new (w.openedTrades pr) with err | r
      · rfl
      · simp only [Except.map, bind, Except.bind]
        rw [happ, hlen, hs]
        have hq : (Spec.shiftTrade c r.2).openQty = r.2.openQty := rfl
        simp only [hq]
        split_ifs
        · rfl
        · rw [shift_register]
    · simp only [Except.map]
      refine congrArg Except.ok ?_
      rw [← shift_register, ← happ, hlen, hs]
      rfl

include hE in
theorem shift_closeTrade (w : World) (e t : ℕ) (q : Option ℤ) :
    (Spec.shiftWorld c w).closeTrade e t q = (w.closeTrade e t q).map (Spec.shiftWorld c) := by
  unfold World.closeTrade
  rw [shift_epic?]
  rcases w.epics[e]? with _ | ep
  · rfl
  · exact shift_closeOn hE w _ _ _

include hE in
theorem shift_closeOpenedLoop (q : Option ℤ) (l : List ℕ) : ∀ w : World,
    closeOpenedLoop q (Spec.shiftWorld c w) l = (closeOpenedLoop q w l).map (Spec.shiftWorld c) := by
  induction l with
  | nil => intro w; rfl
  | cons i rest ih =>
    intro w
    unfold closeOpenedLoop
    rw [shift_trade?]
    rcases w.trades[i]? with _ | t
    · rfl
    · simp only [Option.map_some]
      rw [shift_closed]
      have he : (Spec.shiftTrade c t).epic = t.epic := rfl
      rw [he, shift_closeTrade hE]
      split_ifs
      · exact ih w
      · rcases w.closeTrade t.epic i q with err | w'
        · rfl
        · exact ih w'

/-- Spec: the outcome of an operation, `c` higher. -/
def Spec.shiftOut (c : ℚ) (r : World × Option PyErr) : World × Option PyErr := (Spec.shiftWorld c r.1, r.2)

theorem shift_orKeep (w : World) (r : Except PyErr World) :
    orKeep (Spec.shiftWorld c w) (r.map (Spec.shiftWorld c)) = Spec.shiftOut c (orKeep w r) := by
  rcases r with e | w' <;> rfl

theorem shift_setStatus (w : World) (tg : Target) (st : Status) :
    (Spec.shiftWorld c w).setStatus tg st = Spec.shiftWorld c (w.setStatus tg st) := by
  unfold World.setStatus
  rcases tg with i | ⟨i, j⟩
  · exact shift_modify w i _ _ (fun t => rfl)
  · refine shift_modify w i _ _ (fun t => ?_)
    unfold Spec.shiftTrade
    simp only
    rw [map_modify_comm (Spec.shiftClose c) (fun c => { c with status := st }) _ (fun c => rfl)]

theorem shift_runThread (w : World) (p i : ℕ) (st : Option Status) :
    (Spec.shiftWorld c w).runThread p i st = Spec.shiftOut c (w.runThread p i st) := by
  unfold World.runThread
  have hp : (Spec.shiftWorld c w).providers = w.providers := rfl
  rw [hp]
  rcases w.providers[p]? with _ | pr
  · rfl
  · simp only
    rcases pr.threads[i]? with _ | th
    · rfl
    · simp only
      split_ifs
      · rcases pr.kind
        · simp only [Spec.shiftOut]
          rw [← shift_setStatus]
          rfl
        · rcases st with _ | st
          · rfl
          · simp only [Spec.shiftOut]
            rw [← shift_setStatus]
            rfl
      · rfl

/-- Spec: no quote of a last tick is 0, before or after the shift. -/
def Spec.Quoted (c : ℚ) (w : World) : Prop := ∀ ep ∈ w.epics, Spec.NoZero c ep.lastTick

include hE in
theorem shift_step (w : World) (hw : Spec.Quoted c w) (o : Op) :
    (Spec.shiftWorld c w).step (Spec.shiftOp c o) = Spec.shiftOut c (w.step o) := by
  have hs : (Spec.shiftWorld c w).strategies = w.strategies := rfl
  rcases o with ⟨e, s, d, q⟩ | ⟨e, t, q⟩ | ⟨s, q⟩ | ⟨t, v⟩ | ⟨t, v, dt, q⟩ | ⟨s, dt⟩ | ⟨s, b⟩ | ⟨p, i, st⟩
  · simp only [Spec.shiftOp, World.step]
    rw [shift_epic?, hs]
    rcases hep : w.epics[e]? with _ | ep
    · rfl
    · simp only [Option.map_some]
      have ht : (Spec.shiftEpic c ep).lastTick = Spec.shiftTick c ep.lastTick := rfl
      have hpr : (Spec.shiftEpic c ep).provider = ep.provider := rfl
      split_ifs
      · rw [ht, hpr, shift_openFromTick hE _ (hw ep (List.mem_of_getElem? hep)), ← shift_orKeep]
        congr 1
        rcases Trade.openFromTick ep.lastTick e d q s with err | t
        · rfl
        · exact shift_providerOpen hE w ep.provider t
      · rfl
  · simp only [Spec.shiftOp, World.step]
    rw [shift_closeTrade hE, shift_orKeep]
  · simp only [Spec.shiftOp, World.step]
    rw [hs]
    rcases w.strategies[s]? with _ | st
    · rfl
    · simp only
      rw [shift_closeOpenedLoop hE, shift_orKeep]
  · simp only [Spec.shiftOp, World.step, Spec.shiftOut]
    rw [shift_modify w t (fun x => x.update v) _ (fun x => shift_update hE x v)]
  · simp only [Spec.shiftOp, World.step, Spec.shiftOut]
    rw [shift_modify w t (fun x => x.close v dt q) _ (fun x => shift_close x v dt q)]
  · rfl
  · rfl
  · exact shift_runThread w p i st

include hE in
theorem shift_run {p p' : Prog} (h : Spec.ShiftedProg c p p') : ∀ w : World, Spec.Quoted c w →
    p'.run (Spec.shiftWorld c w) = Spec.shiftOut c (p.run w) := by
  induction h with
  | done => intro w _; rfl
  | raise e => intro w _; rfl
  | act o f f' _ ih =>
    intro w hw
    simp only [Prog.run]
    rw [shift_step hE w hw]
    exact ih _ _ _ (by unfold Spec.Quoted; rw [(step_epics w o).1]; exact hw)

include hE in
theorem shift_updateOpenTrades (w : World) (p : ℕ) (x : Tick) :
    (Spec.shiftWorld c w).updateOpenTrades p (Spec.shiftTick c x) = Spec.shiftWorld c (w.updateOpenTrades p x) := by
  unfold World.updateOpenTrades
  have hp : (Spec.shiftWorld c w).providers = w.providers := rfl
  simp only [hp]
  rcases w.providers[p]? with _ | pr
  · rfl
  · simp only
    rw [shift_openedTrades]
    generalize w.openedTrades pr = l
    induction l generalizing w with
    | nil => rfl
    | cons i rest ih =>
      simp only [List.foldl_cons]
      rw [shift_modify w i (fun t => t.updateFromTick x) _ (fun t => shift_updateFromTick hE t x)]
      exact ih _ rfl

theorem shift_andThen (r : World × Option PyErr) (hr : Spec.Quoted c r.1) (f f' : World → World × Option PyErr)
    (h : ∀ w, Spec.Quoted c w → f' (Spec.shiftWorld c w) = Spec.shiftOut c (f w)) :
    andThen (Spec.shiftOut c r) f' = Spec.shiftOut c (andThen r f) := by
  rcases r with ⟨w, _ | e⟩
  · exact h w hr
  · rfl

theorem quoted_of_epics {w w' : World} (h : w'.epics = w.epics) (hw : Spec.Quoted c w) : Spec.Quoted c w' := by
  unfold Spec.Quoted
  rw [h]
  exact hw

section
variable {env env' : Env} (henv : Spec.ShiftedEnv c env env')
include hE henv

theorem shift_call (w : World) (hw : Spec.Quoted c w) (s : ℕ) (cb : Cb) (e : ℕ) :
    (Spec.shiftWorld c w).call env' s cb e = Spec.shiftOut c (w.call env s cb e) := by
  have h := shift_run hE (henv s cb e { w with log := w.log ++ [.notify s e cb] })
    { w with log := w.log ++ [.notify s e cb] } hw
  have hl : Spec.shiftWorld c { w with log := w.log ++ [.notify s e cb] } =
      { Spec.shiftWorld c w with log := (Spec.shiftWorld c w).log ++ [.notify s e cb] } := by
    unfold Spec.shiftWorld
    simp [Spec.shiftEvent]
  rw [hl] at h
  exact h

theorem shift_callIf (b : Bool) (w : World) (hw : Spec.Quoted c w) (s : ℕ) (cb : Cb) (e : ℕ) :
    (Spec.shiftWorld c w).callIf env' b s cb e = Spec.shiftOut c (w.callIf env b s cb e) := by
  unfold World.callIf
  split_ifs
  · exact shift_call hE henv w hw s cb e
  · rfl

theorem shift_notifyAll (w : World) (hw : Spec.Quoted c w) (e s : ℕ) (b : Bool) :
    (Spec.shiftWorld c w).notifyAll env' e s b = Spec.shiftOut c (w.notifyAll env e s b) := by
  have hm : ∀ v : World, (Spec.shiftWorld c v).marketOpen e = v.marketOpen e := by
    intro v
    unfold World.marketOpen
    rw [shift_epic?]
    rcases v.epics[e]? with _ | ep <;> rfl
  have hq : ∀ (v : World) (b : Bool) (cb : Cb), Spec.Quoted c v → Spec.Quoted c (v.callIf env b s cb e).1 :=
    fun v b cb hv => quoted_of_epics (callIf_epics env b v s cb e).1 hv
  unfold World.notifyAll
  rw [hm, shift_callIf hE henv _ w hw]
  refine shift_andThen _ (hq _ _ _ hw) _ _ fun v hv => ?_
  rw [hm, shift_callIf hE henv _ v hv]
  refine shift_andThen _ (hq _ _ _ hv) _ _ fun v hv => ?_
  rw [hm, shift_callIf hE henv _ v hv]
  exact shift_andThen _ (hq _ _ _ hv) _ _ fun v hv => shift_call hE henv v hv s _ e

theorem shift_execStrategies (e : ℕ) (b : Bool) (dt : DT) (l : List ℕ) : ∀ w : World, Spec.Quoted c w →
    execStrategies env' e b dt (Spec.shiftWorld c w) l = Spec.shiftOut c (execStrategies env e b dt w l) := by
  induction l with
  | nil => intro w _; rfl
  | cons s rest ih =>
    intro w hw
    have h : (Spec.shiftWorld c w).execStrategy env' e s b dt = Spec.shiftOut c (w.execStrategy env e s b dt) := by
      unfold World.execStrategy
      have hs : (Spec.shiftWorld c w).strategies = w.strategies := rfl
      rw [hs]
      rcases w.strategies[s]? with _ | st
      · rfl
      · simp only
        split_ifs
        · exact shift_notifyAll hE henv { w with strategies := w.strategies.set s (st.isActive dt).2 } hw e s b
        · rfl
    have hq : Spec.Quoted c (w.execStrategy env e s b dt).1 := by
      have h1 := (execStrategies_epics env e b dt [s] w).1
      refine quoted_of_epics (w := w) ?_ hw
      rw [← h1]
      simp only [execStrategies]
      rcases w.execStrategy env e s b dt with ⟨v, _ | err⟩ <;> rfl
    unfold execStrategies
    rw [h]
    exact shift_andThen _ hq _ _ ih

include hc

theorem shift_onNewTick (w : World) (hw : Spec.Quoted c w) (e : ℕ) (x : Tick) (hx : Spec.NoZero c x) :
    (Spec.shiftWorld c w).onNewTick env' e (Spec.shiftTick c x) = Spec.shiftOut c (w.onNewTick env e x) := by
  unfold World.onNewTick
  rw [shift_epic?]
  rcases w.epics[e]? with _ | ep
  · rfl
  · simp only [Option.map_some]
    have ht : ({ Spec.shiftTick c x with dt := (Spec.shiftTick c x).dt.to (Spec.shiftEpic c ep).zone } : Tick) =
        Spec.shiftTick c { x with dt := x.dt.to ep.zone } := rfl
    rw [ht, shift_accept hc hE]
    have hd : ((Spec.shiftTick c x).dt.to (Spec.shiftEpic c ep).zone).lt (Spec.shiftEpic c ep).lastTick.dt =
        (x.dt.to ep.zone).lt ep.lastTick.dt := rfl
    have hdt : (Spec.shiftTick c x).dt.to (Spec.shiftEpic c ep).zone = x.dt.to ep.zone := rfl
    have hp : (Spec.shiftEpic c ep).provider = ep.provider := rfl
    have hm : (Spec.shiftEpic c ep).marketOpen = ep.marketOpen := rfl
    have hs : (Spec.shiftEpic c ep).strategies = ep.strategies := rfl
    have hW : ∀ r : Epic, ({ Spec.shiftWorld c w with
        epics := (Spec.shiftWorld c w).epics.set e (Spec.shiftEpic c r)
        log := (Spec.shiftWorld c w).log ++ [.accepted e (Spec.shiftTick c { x with dt := x.dt.to ep.zone })] } : World) =
        Spec.shiftWorld c { w with
          epics := w.epics.set e r
          log := w.log ++ [.accepted e { x with dt := x.dt.to ep.zone }] } := by
      intro r
      unfold Spec.shiftWorld
      simp [Spec.shiftEvent, List.map_set]
    simp only
    rw [hd, hdt, hp, hm, hs, hW]
    split_ifs
    · rfl
    · rcases (ep.accept { x with dt := x.dt.to ep.zone }).2 with _ | err
      · simp only
        rw [shift_updateOpenTrades hE]
        refine shift_execStrategies hE henv _ _ _ _ _ ?_
        refine quoted_of_epics (updateOpenTrades_epics _ _ _).1 ?_
        intro ep' hep'
        rcases List.mem_or_eq_of_mem_set hep' with h | h
        · exact hw ep' h
        · rw [h]
          exact hx
      · rfl

/-- Spec: no quote of a fed tick is 0, before or after the shift. -/
def Spec.CmdQuoted (c : ℚ) : Cmd → Prop
  | .tick _ t => Spec.NoZero c t
  | _ => True

omit hE henv hc in
theorem quoted_exec (w : World) (hw : Spec.Quoted c w) (x : Cmd) (hx : Spec.CmdQuoted c x) :
    Spec.Quoted c (w.exec env x).1 := by
  have hset : ∀ (i : ℕ) (ep' : Epic) (w' : World), w'.epics = w.epics.set i ep' → Spec.NoZero c ep'.lastTick →
      Spec.Quoted c w' := by
    intro i ep' w' h h' a ha
    rw [h] at ha
    rcases List.mem_or_eq_of_mem_set ha with h1 | h1
    · exact hw a h1
    · rw [h1]; exact h'
  rcases x with ⟨e, t⟩ | o | ⟨e, ref, fs⟩ | ⟨e, s⟩ | ⟨e, ref, ind⟩
  · simp only [World.exec]
    unfold World.onNewTick
    rcases w.epics[e]? with _ | ep
    · exact hw
    · simp only
      split_ifs
      · exact hw
      · rcases (ep.accept { t with dt := t.dt.to ep.zone }).2 with _ | err
        · refine hset e (ep.accept { t with dt := t.dt.to ep.zone }).1 _ ?_ hx
          exact (execStrategies_epics _ _ _ _ _ _).1.trans (updateOpenTrades_epics _ _ _).1
        · exact hset e (ep.accept { t with dt := t.dt.to ep.zone }).1 _ rfl hx
  · exact quoted_of_epics (step_epics w o).1 hw
  · simp only [World.exec]
    unfold World.addFrameSet
    rcases hep : w.epics[e]? with _ | ep
    · exact hw
    · simp only
      unfold Epic.addFrameSet
      rcases ep.frameSets.get? ref with _ | _
      · exact hset e _ _ rfl (hw ep (List.mem_of_getElem? hep))
      · exact hw
  · simp only [World.exec]
    unfold World.addStrategy
    rcases w.epics[e]? with _ | ep <;> rcases w.strategies[s]? with _ | st
    · exact hw
    · exact hw
    · exact hw
    · simp only
      rcases ep.strategies.get? st.ref with _ | _
      · intro a ha
        have ha' : a ∈ w.epics.modify e (fun ep => { ep with strategies := ep.strategies.set st.ref s }) := ha
        obtain ⟨i, hi⟩ := List.mem_iff_getElem?.mp ha'
        rw [List.getElem?_modify] at hi
        rcases hb : w.epics[i]? with _ | b
        · rw [hb] at hi; simp at hi
        · rw [hb] at hi
          have := hw b (List.mem_of_getElem? hb)
          simp only [Option.map_eq_map, Option.map_some, Option.some.injEq] at hi
          rw [← hi]
          split_ifs <;> exact this
      · exact hw
  · simp only [World.exec]
    unfold World.addIndicator
    rcases hep : w.epics[e]? with _ | ep
    · exact hw
    · simp only
      rcases ep.frameSets.get? ref with _ | fs
      · exact hw
      · exact hset e _ _ rfl (hw ep (List.mem_of_getElem? hep))

theorem shift_exec (w : World) (hw : Spec.Quoted c w) (x : Cmd) (hx : Spec.CmdQuoted c x) :
    (Spec.shiftWorld c w).exec env' (Spec.shiftCmd c x) = Spec.shiftOut c (w.exec env x) := by
  have hs : (Spec.shiftWorld c w).strategies = w.strategies := rfl
  have hset : ∀ (i : ℕ) (ep' : Epic), ({ Spec.shiftWorld c w with
      epics := (Spec.shiftWorld c w).epics.set i (Spec.shiftEpic c ep') } : World) =
      Spec.shiftWorld c { w with epics := w.epics.set i ep' } := by
    intro i ep'
    unfold Spec.shiftWorld
    simp [List.map_set]
  rcases x with ⟨e, t⟩ | o | ⟨e, ref, fs⟩ | ⟨e, s⟩ | ⟨e, ref, ind⟩
  · exact shift_onNewTick hc hE henv w hw e t hx
  · exact shift_step hE w hw o
  · simp only [Spec.shiftCmd, World.exec]
    unfold World.addFrameSet
    rw [shift_epic?]
    rcases w.epics[e]? with _ | ep
    · rfl
    · simp only [Option.map_some]
      have h : (Spec.shiftEpic c ep).addFrameSet ref (Spec.shiftFrameSet c fs) =
          (ep.addFrameSet ref fs).map (Spec.shiftEpic c) := by
        unfold Epic.addFrameSet Spec.shiftEpic
        simp only
        rw [Dict.get?_map, Dict.set_map]
        rcases ep.frameSets.get? ref with _ | _ <;> rfl
      rw [h]
      rcases ep.addFrameSet ref fs with err | ep'
      · rfl
      · exact congrArg (·, none) (hset e ep')
  · simp only [Spec.shiftCmd, World.exec]
    unfold World.addStrategy
    rw [shift_epic?, hs]
    rcases w.epics[e]? with _ | ep <;> rcases w.strategies[s]? with _ | st
    · rfl
    · rfl
    · rfl
    · simp only [Option.map_some]
      have h : (Spec.shiftEpic c ep).strategies = ep.strategies := rfl
      have hr : (Spec.shiftEpic c ep).ref = ep.ref := rfl
      rw [h, hr]
      rcases ep.strategies.get? st.ref with _ | _
      · simp only [Spec.shiftOut, World.modEpic, World.modStrategy]
        unfold Spec.shiftWorld
        simp only
        rw [map_modify_comm (Spec.shiftEpic c) (fun ep => { ep with strategies := ep.strategies.set st.ref s }) _
          (fun _ => rfl)]
      · rfl
  · simp only [Spec.shiftCmd, World.exec]
    unfold World.addIndicator
    rw [shift_epic?]
    rcases w.epics[e]? with _ | ep
    · rfl
    · simp only [Option.map_some]
      have hg : (Spec.shiftEpic c ep).frameSets.get? ref = (ep.frameSets.get? ref).map (Spec.shiftFrameSet c) :=
        Dict.get?_map _ _ _
      rw [hg]
      rcases ep.frameSets.get? ref with _ | fs
      · rfl
      · simp only [Option.map_some]
        have ha : (Spec.shiftFrameSet c fs).addIndicator ind = Spec.shiftFed c (fs.addIndicator ind) := by
          unfold FrameSet.addIndicator
          rcases ind.kind <;> rfl
        rw [ha]
        have he : ({ Spec.shiftEpic c ep with
            frameSets := (Spec.shiftEpic c ep).frameSets.set ref (Spec.shiftFrameSet c (fs.addIndicator ind).1) } : Epic) =
            Spec.shiftEpic c { ep with frameSets := ep.frameSets.set ref (fs.addIndicator ind).1 } := by
          unfold Spec.shiftEpic
          simp only
          rw [Dict.set_map (Spec.shiftFrameSet c)]
        simp only [Spec.shiftFed, Spec.shiftOut]
        rw [he, hset]

end

end

/-! ## The theorems -/

/-- C80: add the same even number of cents to every price of a program.  From any state in which all epics have been
quoted, after any commands, the world is the same but for the shifted prices: same frames and extremes, same changes and RSI,
same trades, quantities, results, extremes of results, requests and notifications. -/
theorem C80_translation_partial (hE : Exact) {c : ℚ} (hc : Spec.EvenCents c) {env env' : Env}
    (henv : Spec.ShiftedEnv c env env') (w : World) (hw : Spec.Quoted c w) (l : List Cmd)
    (hl : ∀ x ∈ l, Spec.CmdQuoted c x) :
    (Spec.shiftWorld c w).runCmds env' (l.map (Spec.shiftCmd c)) = Spec.shiftWorld c (w.runCmds env l) := by
  unfold World.runCmds
  induction l generalizing w with
  | nil => rfl
  | cons x l ih =>
    simp only [List.map_cons, List.foldl_cons]
    rw [shift_exec hc hE henv w hw x (hl x (by simp))]
    exact ih _ (quoted_exec w hw x (hl x (by simp))) (fun y hy => hl y (by simp [hy]))

theorem quoted_runCmds {c : ℚ} {env : Env} (w : World) (hw : Spec.Quoted c w) (l : List Cmd)
    (hl : ∀ x ∈ l, Spec.CmdQuoted c x) : Spec.Quoted c (w.runCmds env l) := by
  unfold World.runCmds
  induction l generalizing w with
  | nil => exact hw
  | cons x l ih => exact ih _ (quoted_exec w hw x (hl x (by simp))) (fun y hy => hl y (by simp [hy]))

/-- C80, exceptions: the next command raises in one program exactly when it raises in the other, and the same. -/
theorem C80_same_exceptions_partial (hE : Exact) {c : ℚ} (hc : Spec.EvenCents c) {env env' : Env}
    (henv : Spec.ShiftedEnv c env env') (w : World) (hw : Spec.Quoted c w) (l : List Cmd)
    (hl : ∀ x ∈ l, Spec.CmdQuoted c x) (x : Cmd) (hx : Spec.CmdQuoted c x) :
    (((Spec.shiftWorld c w).runCmds env' (l.map (Spec.shiftCmd c))).exec env' (Spec.shiftCmd c x)).2 =
      ((w.runCmds env l).exec env x).2 := by
  rw [C80_translation_partial hE hc henv w hw l hl, shift_exec hc hE henv _ (quoted_runCmds w hw l hl) x hx]
  rfl

/-! ### From the start of a program -/

/-- Spec: a command of the setup: a tick with nonzero quotes, or the registration of a frame set or an indicator. -/
def Spec.SetupCmd (c : ℚ) : Cmd → Prop
  | .tick _ t => Spec.NoZero c t
  | .addFrameSet _ _ _ => True
  | .addIndicator _ _ _ => True
  | _ => False

/-- Spec: the epic `c` higher, unless it shows the placeholder tick of a new epic. -/
def Spec.startEpic (c : ℚ) (e : Epic) : Epic :=
  { Spec.shiftEpic c e with lastTick := if e.lastTick = Tick.epoch then e.lastTick else Spec.shiftTick c e.lastTick }

/-- Spec: the world `c` higher, but for the placeholder ticks. -/
def Spec.startWorld (c : ℚ) (w : World) : World :=
  { w with epics := w.epics.map (Spec.startEpic c), log := w.log.map (Spec.shiftEvent c) }

theorem start_dt (c : ℚ) (e : Epic) : (Spec.startEpic c e).lastTick.dt = e.lastTick.dt := by
  unfold Spec.startEpic
  simp only
  split_ifs <;> rfl

/-- State of the setup: no trade, no strategy registered. -/
def SetupInv (w : World) : Prop := w.trades = [] ∧ ∀ ep ∈ w.epics, ep.strategies = []

theorem setup_set {w w' : World} (hw : SetupInv w) (e : ℕ) (ep : Epic) (h : w'.epics = w.epics.set e ep)
    (ht : w'.trades = w.trades) (hs : ep.strategies = []) : SetupInv w' := by
  refine ⟨ht.trans hw.1, fun a ha => ?_⟩
  rw [h] at ha
  rcases List.mem_or_eq_of_mem_set ha with h1 | h1
  · exact hw.2 a h1
  · rw [h1]; exact hs

theorem setup_update {w : World} (hw : w.trades = []) (p : ℕ) (x : Tick) : w.updateOpenTrades p x = w := by
  unfold World.updateOpenTrades
  rcases w.providers[p]? with _ | pr
  · rfl
  · simp only
    have : w.openedTrades pr = [] := by
      unfold World.openedTrades
      rw [List.filter_eq_nil_iff]
      intro i _
      rw [hw]
      simp
    rw [this]
    rfl

theorem start_exec (hE : Exact) {c : ℚ} (hc : Spec.EvenCents c) (env env' : Env) (w : World) (hw : SetupInv w) (x : Cmd)
    (hx : Spec.SetupCmd c x) :
    ((Spec.startWorld c w).exec env' (Spec.shiftCmd c x)).1 = Spec.startWorld c (w.exec env x).1 ∧
      SetupInv (w.exec env x).1 := by
  have hep : ∀ e : ℕ, (Spec.startWorld c w).epics[e]? = (w.epics[e]?).map (Spec.startEpic c) :=
    fun e => List.getElem?_map ..
  have hset : ∀ (i : ℕ) (ep' : Epic), ({ Spec.startWorld c w with
      epics := (Spec.startWorld c w).epics.set i (Spec.startEpic c ep') } : World) =
      Spec.startWorld c { w with epics := w.epics.set i ep' } := by
    intro i ep'
    unfold Spec.startWorld
    simp [List.map_set]
  rcases x with ⟨e, t⟩ | o | ⟨e, ref, fs⟩ | ⟨e, s⟩ | ⟨e, ref, ind⟩
  · simp only [Spec.shiftCmd, World.exec]
    unfold World.onNewTick
    rw [hep]
    rcases hepe : w.epics[e]? with _ | ep
    · exact ⟨rfl, hw⟩
    · simp only [Option.map_some]
      have hst : ep.strategies = [] := hw.2 ep (List.mem_of_getElem? hepe)
      have ht : ({ Spec.shiftTick c t with dt := (Spec.shiftTick c t).dt.to (Spec.startEpic c ep).zone } : Tick) =
          Spec.shiftTick c { t with dt := t.dt.to ep.zone } := rfl
      have hacc : (Spec.startEpic c ep).accept (Spec.shiftTick c { t with dt := t.dt.to ep.zone }) =
          (Spec.startEpic c (ep.accept { t with dt := t.dt.to ep.zone }).1,
            (ep.accept { t with dt := t.dt.to ep.zone }).2) := by
        refine (shift_accept hc hE ep { t with dt := t.dt.to ep.zone }).trans ?_
        have : Spec.startEpic c (ep.accept { t with dt := t.dt.to ep.zone }).1 =
            Spec.shiftEpic c (ep.accept { t with dt := t.dt.to ep.zone }).1 := by
          unfold Spec.startEpic
          rw [if_neg]
          · rfl
          · intro h
            have h' : t.bid = 0 := congrArg Tick.bid h
            exact hx.1 h'
        rw [this]
      have hd : ((Spec.shiftTick c t).dt.to (Spec.startEpic c ep).zone).lt (Spec.startEpic c ep).lastTick.dt =
          (t.dt.to ep.zone).lt ep.lastTick.dt := by rw [start_dt]; rfl
      have hs' : (Spec.startEpic c ep).strategies = ep.strategies := rfl
      have hW : ∀ r : Epic, ({ Spec.startWorld c w with
          epics := (Spec.startWorld c w).epics.set e (Spec.startEpic c r)
          log := (Spec.startWorld c w).log ++ [.accepted e (Spec.shiftTick c { t with dt := t.dt.to ep.zone })] } : World) =
          Spec.startWorld c { w with
            epics := w.epics.set e r
            log := w.log ++ [.accepted e { t with dt := t.dt.to ep.zone }] } := by
        intro r
        unfold Spec.startWorld
        simp [Spec.shiftEvent, List.map_set]
      rw [ht, hacc]
      simp only
      rw [hd, hs', hW, hst]
      split_ifs
      · exact ⟨rfl, hw⟩
      · have hn : (ep.accept { t with dt := t.dt.to ep.zone }).1.strategies = [] := hst
        rcases (ep.accept { t with dt := t.dt.to ep.zone }).2 with _ | err
        · simp only [List.map_nil, execStrategies]
          rw [setup_update (w := Spec.startWorld c _) (by exact hw.1), setup_update (by exact hw.1)]
          exact ⟨rfl, setup_set hw e _ rfl rfl hn⟩
        · exact ⟨rfl, setup_set hw e _ rfl rfl hn⟩
  · exact hx.elim
  · simp only [Spec.shiftCmd, World.exec]
    unfold World.addFrameSet
    rw [hep]
    rcases hepe : w.epics[e]? with _ | ep
    · exact ⟨rfl, hw⟩
    · simp only [Option.map_some]
      have hst : ep.strategies = [] := hw.2 ep (List.mem_of_getElem? hepe)
      have h : (Spec.startEpic c ep).addFrameSet ref (Spec.shiftFrameSet c fs) =
          (ep.addFrameSet ref fs).map (Spec.startEpic c) := by
        unfold Epic.addFrameSet Spec.startEpic Spec.shiftEpic
        simp only
        rw [Dict.get?_map, Dict.set_map]
        rcases ep.frameSets.get? ref with _ | _ <;> rfl
      rw [h]
      unfold Epic.addFrameSet
      rcases ep.frameSets.get? ref with _ | _
      · exact ⟨hset e { ep with frameSets := ep.frameSets.set ref fs }, setup_set hw e _ rfl rfl hst⟩
      · exact ⟨rfl, hw⟩
  · exact hx.elim
  · simp only [Spec.shiftCmd, World.exec]
    unfold World.addIndicator
    rw [hep]
    rcases hepe : w.epics[e]? with _ | ep
    · exact ⟨rfl, hw⟩
    · simp only [Option.map_some]
      have hst : ep.strategies = [] := hw.2 ep (List.mem_of_getElem? hepe)
      have hg : (Spec.startEpic c ep).frameSets.get? ref = (ep.frameSets.get? ref).map (Spec.shiftFrameSet c) :=
        Dict.get?_map _ _ _
      rw [hg]
      rcases ep.frameSets.get? ref with _ | fs
      · exact ⟨rfl, hw⟩
      · simp only [Option.map_some]
        have ha : (Spec.shiftFrameSet c fs).addIndicator ind = Spec.shiftFed c (fs.addIndicator ind) := by
          unfold FrameSet.addIndicator
          rcases ind.kind <;> rfl
        rw [ha]
        have he : ({ Spec.startEpic c ep with
            frameSets := (Spec.startEpic c ep).frameSets.set ref (Spec.shiftFrameSet c (fs.addIndicator ind).1) } : Epic) =
            Spec.startEpic c { ep with frameSets := ep.frameSets.set ref (fs.addIndicator ind).1 } := by
          unfold Spec.startEpic Spec.shiftEpic
          simp only
          rw [Dict.set_map (Spec.shiftFrameSet c)]
        simp only [Spec.shiftFed]
        rw [he, hset]
        exact ⟨rfl, setup_set hw e _ rfl rfl hst⟩

theorem start_run (hE : Exact) {c : ℚ} (hc : Spec.EvenCents c) (env env' : Env) (l : List Cmd)
    (hl : ∀ x ∈ l, Spec.SetupCmd c x) : ∀ w : World, SetupInv w →
    (Spec.startWorld c w).runCmds env' (l.map (Spec.shiftCmd c)) = Spec.startWorld c (w.runCmds env l) ∧
      SetupInv (w.runCmds env l) := by
  unfold World.runCmds
  induction l with
  | nil => intro w hw; exact ⟨rfl, hw⟩
  | cons x l ih =>
    intro w hw
    simp only [List.map_cons, List.foldl_cons]
    obtain ⟨h1, h2⟩ := start_exec hE hc env env' w hw x (hl x (by simp))
    rw [h1]
    exact ih (fun y hy => hl y (by simp [hy])) _ h2

/-- C80 from the start of a program: frame sets and indicators are registered and every epic gets a first tick (`l0`), then
anything happens.  The shifted program, from the same start, ends in the shifted world. -/
theorem C80_from_start_partial (hE : Exact) {c : ℚ} (hc : Spec.EvenCents c) {env env' : Env}
    (henv : Spec.ShiftedEnv c env env') (w : World) (hw : w.Init) (l0 l : List Cmd) (h0 : ∀ x ∈ l0, Spec.SetupCmd c x)
    (hq : ∀ ep ∈ (w.runCmds env l0).epics, Spec.NoZero c ep.lastTick) (hl : ∀ x ∈ l, Spec.CmdQuoted c x) :
    w.runCmds env' ((l0 ++ l).map (Spec.shiftCmd c)) = Spec.shiftWorld c (w.runCmds env (l0 ++ l)) := by
  have hinv : SetupInv w := by
    refine ⟨hw.trades, fun ep hep => ?_⟩
    obtain ⟨_, _, _, _, _, _, _, _, rfl⟩ := hw.epics ep hep
    rfl
  have hstart : Spec.startWorld c w = w := by
    have h1 : w.epics.map (Spec.startEpic c) = w.epics := by
      conv_rhs => rw [← List.map_id w.epics]
      refine List.map_congr_left fun ep hep => ?_
      obtain ⟨_, _, _, _, _, _, _, _, rfl⟩ := hw.epics ep hep
      unfold Spec.startEpic
      rw [if_pos (by rfl)]
      rfl
    have h2 : w.log.map (Spec.shiftEvent c) = w.log := by rw [hw.log]; rfl
    unfold Spec.startWorld
    rw [h1, h2]
  obtain ⟨h1, h2⟩ := start_run hE hc env env' l0 h0 w hinv
  have hend : Spec.startWorld c (w.runCmds env l0) = Spec.shiftWorld c (w.runCmds env l0) := by
    have h3 : (w.runCmds env l0).epics.map (Spec.startEpic c) = (w.runCmds env l0).epics.map (Spec.shiftEpic c) := by
      refine List.map_congr_left fun ep hep => ?_
      unfold Spec.startEpic
      rw [if_neg]
      · rfl
      · intro h
        exact (hq ep hep).1 (congrArg Tick.bid h)
    unfold Spec.startWorld Spec.shiftWorld
    rw [h3, h2.1]
    rfl
  rw [hstart, hend] at h1
  have hsplit : ∀ (en : Env) (v : World) (a b : List Cmd), v.runCmds en (a ++ b) = (v.runCmds en a).runCmds en b := by
    intro en v a b
    unfold World.runCmds
    rw [List.foldl_append]
  rw [List.map_append, hsplit, hsplit, h1]
  exact C80_translation_partial hE hc henv _ hq l hl

/-! ### What the user sees -/

theorem shift_tradesOf (c : ℚ) (w : World) (s : ℕ) :
    Spec.tradesOf (Spec.shiftWorld c w) s = (Spec.tradesOf w s).map (Spec.shiftTrade c) := by
  unfold Spec.tradesOf
  have hs : (Spec.shiftWorld c w).strategies = w.strategies := rfl
  rw [hs]
  rcases w.strategies[s]? with _ | st
  · rfl
  · simp only
    rw [List.map_filterMap]
    exact List.filterMap_congr (fun i _ => shift_trade? w i)

/-- C80, trades: after a program from its start, trade `i` of the shifted run has the same direction, quantities, results
and extremes of results; only its prices moved. -/
theorem C80_trades_partial (hE : Exact) {c : ℚ} (hc : Spec.EvenCents c) {env env' : Env}
    (henv : Spec.ShiftedEnv c env env') (w : World) (hw : w.Init) (l0 l : List Cmd) (h0 : ∀ x ∈ l0, Spec.SetupCmd c x)
    (hq : ∀ ep ∈ (w.runCmds env l0).epics, Spec.NoZero c ep.lastTick) (hl : ∀ x ∈ l, Spec.CmdQuoted c x)
    (i : ℕ) (t : Trade) (ht : (w.runCmds env (l0 ++ l)).trades[i]? = some t) :
    ∃ t', (w.runCmds env' ((l0 ++ l).map (Spec.shiftCmd c))).trades[i]? = some t' ∧ t'.dir = t.dir ∧
      t'.openedQty = t.openedQty ∧ t'.closedQty = t.closedQty ∧ t'.result = t.result ∧ t'.openedResult = t.openedResult ∧
      t'.closedResult = t.closedResult ∧ t'.resultAvg = t.resultAvg ∧ t'.maxRes = t.maxRes ∧ t'.minRes = t.minRes ∧
      t'.openValue = t.openValue + c ∧ t'.curClose = t.curClose + c := by
  rw [C80_from_start_partial hE hc henv w hw l0 l h0 hq hl]
  refine ⟨Spec.shiftTrade c t, by rw [shift_trade?, ht]; rfl, rfl, shift_openedQty t, shift_closedQty t, shift_result hE t,
    ?_, shift_closedResult hE t, ?_, rfl, rfl, rfl, rfl⟩
  · unfold Trade.openedResult
    rw [shift_openedResultAvg hE, shift_openedQty]
  · unfold Trade.resultAvg
    rw [shift_result hE]
    rfl

/-- C80, strategies: result and profit factor are the same. -/
theorem C80_strategies_partial (hE : Exact) {c : ℚ} (hc : Spec.EvenCents c) {env env' : Env}
    (henv : Spec.ShiftedEnv c env env') (w : World) (hw : w.Init) (l0 l : List Cmd) (h0 : ∀ x ∈ l0, Spec.SetupCmd c x)
    (hq : ∀ ep ∈ (w.runCmds env l0).epics, Spec.NoZero c ep.lastTick) (hl : ∀ x ∈ l, Spec.CmdQuoted c x) (s : ℕ) :
    let own := Spec.tradesOf (w.runCmds env (l0 ++ l)) s
    let own' := Spec.tradesOf (w.runCmds env' ((l0 ++ l).map (Spec.shiftCmd c))) s
    strategyResult own' .none = strategyResult own .none ∧ profitFactor own' .none = profitFactor own .none := by
  simp only
  rw [C80_from_start_partial hE hc henv w hw l0 l h0 hq hl, shift_tradesOf]
  generalize Spec.tradesOf (w.runCmds env (l0 ++ l)) s = L
  constructor
  · unfold strategyResult TradesArg.resolve
    simp only [List.map_map]
    have h : L.map (Trade.result ∘ Spec.shiftTrade c) = L.map Trade.result :=
      List.map_congr_left (fun t _ => shift_result hE t)
    rw [h]
  · unfold profitFactor TradesArg.resolve
    simp only
    have h : pfSums (L.map (Spec.shiftTrade c)) = pfSums L := by
      unfold pfSums
      rw [List.foldl_map]
      simp only [shift_result hE]
    rw [h]

theorem shift_previous (c : ℚ) (heap : List Frame) (v : IndVal) :
    (Spec.shiftVal c v).previous (heap.map (Spec.shiftFrame c)) = (v.previous heap).map (Spec.shiftVal c) := by
  unfold IndVal.previous IndVal.parent
  have hl : (heap.map (Spec.shiftFrame c)).length = heap.length := List.length_map _
  have hr : (Spec.shiftVal c v).ind.ref = v.ind.ref := rfl
  have hf : (Spec.shiftVal c v).frame = v.frame := rfl
  rw [hl, hr, hf, List.getElem?_map]
  have hp : ((heap[v.frame]?).map (Spec.shiftFrame c)).bind Frame.prev = (heap[v.frame]?).bind Frame.prev := by
    rcases heap[v.frame]? with _ | f <;> rfl
  rw [hp, shift_prevValue]

theorem sum_map_add (c : ℚ) (l : List ℚ) : (l.map (· + c)).sum = l.sum + l.length * c := by
  induction l with
  | nil => simp
  | cons x l ih => simp only [List.map_cons, List.sum_cons, List.length_cons]; rw [ih]; push_cast; ring

/-- C80, indicators: of a value in the shifted world, the RSI is the same; averages, Japanese candles and pivots are `c`
higher, and exist when they did. -/
theorem C80_indicators_partial (hE : Exact) {c : ℚ} (hc : Spec.EvenCents c) (heap : List Frame) (v : IndVal) :
    (Spec.shiftVal c v).rsi = v.rsi ∧
    (∀ n : ℤ, 1 ≤ n →
      smaGet (heap.map (Spec.shiftFrame c)) (Spec.shiftVal c v) n = (smaGet heap v n).map (·.map (· + c))) ∧
    jOpen (Spec.shiftVal c v) = jOpen v + c ∧ jHigh (Spec.shiftVal c v) = jHigh v + c ∧
    jLow (Spec.shiftVal c v) = jLow v + c ∧ jLast (Spec.shiftVal c v) = jLast v + c ∧
    pivotClassic (heap.map (Spec.shiftFrame c)) (Spec.shiftVal c v) = (pivotClassic heap v).map (· + c) ∧
    pivotOLHC (heap.map (Spec.shiftFrame c)) (Spec.shiftVal c v) = (pivotOLHC heap v).map (· + c) := by
  have hr : ∀ x : ℚ, rnd (x + c) = rnd x + c := fun x => by rw [rnd_exact hE, rnd_exact hE, cent_add_even hc]
  have hv : ∀ t : Tick, (Spec.shiftTick c t).value = t.value + c := shift_value hc hE
  have hj : ∀ t : Tick, rnd (Spec.shiftTick c t).value = rnd t.value + c := fun t => by rw [hv, hr]
  refine ⟨rfl, ?_, hj _, hj _, hj _, hj _, ?_, ?_⟩
  · intro n hn
    unfold smaGet IndVal.parent
    have hf : (Spec.shiftVal c v).frame = v.frame := rfl
    rw [hf, List.getElem?_map]
    rcases heap[v.frame]? with _ | f
    · rfl
    · simp only [Option.map_some]
      rw [shift_extendedCloses hc hE, List.length_map]
      split_ifs with hlt
      · rfl
      · rw [sliceFrom_map]
        have hlen : ((sliceFrom (extendedCloses v f) (n * -1)).length : ℚ) = n := by
          have : ((sliceFrom (extendedCloses v f) (n * -1)).length : ℤ) = n := by
            unfold sliceFrom
            rw [if_neg (by omega), List.length_drop]
            omega
          exact_mod_cast this
        have hn0 : (n : ℚ) ≠ 0 := by
          have : n ≠ 0 := by omega
          exact_mod_cast this
        unfold pyDiv
        rw [if_neg hn0, if_neg hn0, fsum_exact hE, fsum_exact hE, sum_map_add, hlen]
        simp only [Except.map, bind, Except.bind, Option.map_some]
        rw [fdiv_exact hE, fdiv_exact hE, add_div, mul_div_cancel_left₀ c hn0, hr]
  · unfold pivotClassic
    rw [shift_previous, Option.map_map, Option.map_map]
    congr 1
    funext p
    simp only [Function.comp, Spec.shiftVal, hv]
    rw [← hr]
    congr 1
    simp only [fadd_exact hE, fdiv_exact hE]
    ring
  · unfold pivotOLHC
    rw [shift_previous, Option.map_map, Option.map_map]
    congr 1
    funext p
    simp only [Function.comp, Spec.shiftVal, hv]
    rw [← hr]
    congr 1
    simp only [fadd_exact hE, fdiv_exact hE]
    ring

/-- C80, Heikin-Ashi candles of the shifted world: `c` higher, with the same exceptions. -/
theorem C80_heikin_partial (hE : Exact) {c : ℚ} (hc : Spec.EvenCents c) (heap : List Frame) (v : IndVal) :
    haOpen (heap.map (Spec.shiftFrame c)) (Spec.shiftVal c v) = (haOpen heap v).map (· + c) ∧
    haHigh (heap.map (Spec.shiftFrame c)) (Spec.shiftVal c v) = (haHigh heap v).map (· + c) ∧
    haLow (heap.map (Spec.shiftFrame c)) (Spec.shiftVal c v) = (haLow heap v).map (· + c) ∧
    haLast (Spec.shiftVal c v) = haLast v + c := by
  have hr : ∀ x : ℚ, rnd (x + c) = rnd x + c := fun x => by rw [rnd_exact hE, rnd_exact hE, cent_add_even hc]
  have hv : ∀ t : Tick, (Spec.shiftTick c t).value = t.value + c := shift_value hc hE
  have hlast : ∀ v : IndVal, haLast (Spec.shiftVal c v) = haLast v + c := by
    intro v
    unfold haLast
    simp only [Spec.shiftVal, hv]
    rw [← hr]
    congr 1
    simp only [fadd_exact hE, fdiv_exact hE]
    ring
  have hopen : ∀ (n : ℕ) (v : IndVal), haOpenFuel (heap.map (Spec.shiftFrame c)) n (Spec.shiftVal c v) =
      (haOpenFuel heap n v).map (· + c) := by
    intro n
    induction n with
    | zero => intro v; rfl
    | succ n ih =>
      intro v
      unfold haOpenFuel
      rw [shift_previous]
      rcases v.previous heap with _ | p
      · simp only [Option.map_none, Except.map]
        rw [← hr, ← hv]
        rfl
      · simp only [Option.map_some]
        have hk : (Spec.shiftVal c p).ind.kind = p.ind.kind := rfl
        rw [hk]
        rcases p.ind.kind <;> try rfl
        · simp only [Except.map]
          have h1 : jOpen (Spec.shiftVal c p) = jOpen p + c := by unfold jOpen; simp only [Spec.shiftVal, hv, hr]
          have h2 : jLast (Spec.shiftVal c p) = jLast p + c := by unfold jLast; simp only [Spec.shiftVal, hv, hr]
          rw [h1, h2, ← hr]
          congr 2
          simp only [fadd_exact hE, fdiv_exact hE]
          ring
        · simp only
          rw [ih p, hlast]
          rcases haOpenFuel heap n p with e | o
          · rfl
          · simp only [Except.map, bind, Except.bind]
            rw [← hr]
            congr 2
            simp only [fadd_exact hE, fdiv_exact hE]
            ring
  have hl : (heap.map (Spec.shiftFrame c)).length = heap.length := List.length_map _
  have ho : haOpen (heap.map (Spec.shiftFrame c)) (Spec.shiftVal c v) = (haOpen heap v).map (· + c) := by
    unfold haOpen
    rw [hl]
    exact hopen _ v
  refine ⟨ho, ?_, ?_, hlast v⟩
  · unfold haHigh
    rw [ho, hlast]
    rcases haOpen heap v with e | o
    · rfl
    · simp only [Except.map, bind, Except.bind, Spec.shiftVal, hv]
      rw [max_add_add_right, max_add_add_right, hr]
  · unfold haLow
    rw [ho, hlast]
    rcases haOpen heap v with e | o
    · rfl
    · simp only [Except.map, bind, Except.bind, Spec.shiftVal, hv]
      rw [min_add_add_right, min_add_add_right, hr]

/-- Spec: a strategy that buys when the last tick of its epic is above the first tick of the current frame of frame set
`ref` and sells otherwise, at each tick of an open market, and closes everything at the end of the day. -/
def Spec.trend (q : ℤ) (ref : String) : Env := fun s cb e w =>
  match cb with
  | .everyTickOpen =>
    match w.epics[e]? with
    | none => .done
    | some ep => match ep.getFrame ref 0 with
      | .ok (some f) =>
        .act (.openTrade e (some s) (some (if f.first.value < ep.lastTick.value then .buy else .sell)) q) fun _ _ => .done
      | _ => .done
  | .marketClose => .act (.closeOpened s none) fun _ _ => .done
  | _ => .done

theorem shift_getFrame (c : ℚ) (ep : Epic) (ref : String) (k : ℤ) :
    (Spec.shiftEpic c ep).getFrame ref k = (ep.getFrame ref k).map (·.map (Spec.shiftFrame c)) := by
  unfold Epic.getFrame
  have hg : (Spec.shiftEpic c ep).frameSets.get? ref = (ep.frameSets.get? ref).map (Spec.shiftFrameSet c) :=
    Dict.get?_map _ _ _
  rw [hg]
  rcases ep.frameSets.get? ref with _ | fs
  · rfl
  · simp only [Option.map_some, Except.map]
    unfold FrameSet.getItem Spec.shiftFrameSet
    simp only
    rcases pyGet fs.frames ((k + 1) * -1) with _ | i
    · rfl
    · simp only [Option.bind_some]
      rw [List.getElem?_map]

/-- C80: callbacks that trade on differences of prices take the same decisions when prices are shifted, so the theorems
cover them. -/
theorem C80_trend_partial (hE : Exact) {c : ℚ} (hc : Spec.EvenCents c) (q : ℤ) (ref : String) :
    Spec.ShiftedEnv c (Spec.trend q ref) (Spec.trend q ref) := by
  intro s cb e w
  unfold Spec.trend
  rcases cb
  · exact .act (.closeOpened s none) _ _ (fun _ _ => .done)
  · exact .done
  · simp only
    rw [shift_epic?]
    rcases w.epics[e]? with _ | ep
    · exact .done
    · simp only [Option.map_some]
      rw [shift_getFrame]
      rcases ep.getFrame ref 0 with err | _ | f
      · exact .done
      · exact .done
      · simp only [Except.map, Option.map_some]
        have h1 : (Spec.shiftFrame c f).first.value = f.first.value + c := shift_value hc hE _
        have h2 : (Spec.shiftEpic c ep).lastTick.value = ep.lastTick.value + c := shift_value hc hE _
        rw [h1, h2]
        simp only [add_lt_add_iff_right]
        exact .act (.openTrade e (some s) (some (if f.first.value < ep.lastTick.value then .buy else .sell)) q) _ _
          (fun _ _ => .done)
  · exact .done

end

/-! ## Concrete cases -/

/-- Setup: frame set and first ticks of both epics. -/
private def setup (a b : ℚ) : List Cmd :=
  [.addFrameSet 0 "UT1" Demo.minutes, .tick 0 (Demo.tk 955 a b), .tick 1 (Demo.tk 955 5 6)]

/-- The end of a day: the market moves, then closes. -/
private def day : List Cmd :=
  [.addStrategy 0 0, .tick 0 (Demo.tk 956 10 12), .tick 0 (Demo.tk 956 12 14), .tick 0 (Demo.tk 958 9 11), .tick 0 (Demo.tk 958 8 10),
   .tick 0 (Demo.tk 959 (25 / 2) 13), .tick 0 (Demo.tk 961 10 12)]

/-- C80: the trend strategy on that day and on the same day 100 higher. -/
example : letI := Arith.exact
    let l := setup 10 12 ++ day
    let own := Spec.tradesOf (Demo.world.runCmds (Spec.trend 3 "UT1") l) 0
    let own' := Spec.tradesOf (Demo.world.runCmds (Spec.trend 3 "UT1") (l.map (Spec.shiftCmd 100))) 0
    own.map Trade.result = [-12, -9, -12, 3 / 2] ∧ own'.map Trade.result = own.map Trade.result ∧
    own'.map Trade.openValue = (own.map Trade.openValue).map (· + 100) ∧ strategyResult own' .none = strategyResult own .none := by
  letI := Arith.exact
  decide +kernel

/-- C80: that program meets the hypotheses of the theorems. -/
example : letI := Arith.exact
    strategyResult (Spec.tradesOf (Demo.world.runCmds (Spec.trend 3 "UT1") ((setup 10 12 ++ day).map (Spec.shiftCmd 100))) 0)
      .none = strategyResult (Spec.tradesOf (Demo.world.runCmds (Spec.trend 3 "UT1") (setup 10 12 ++ day)) 0) .none := by
  letI := Arith.exact
  have hc : Spec.EvenCents 100 := ⟨5000, by norm_num⟩
  have h0 : ∀ x ∈ setup 10 12, Spec.SetupCmd 100 x := by
    intro x hx
    simp only [setup, List.mem_cons, List.not_mem_nil, or_false] at hx
    rcases hx with rfl | rfl | rfl
    · trivial
    · simp only [Spec.SetupCmd, Spec.NoZero, Demo.tk]; norm_num
    · simp only [Spec.SetupCmd, Spec.NoZero, Demo.tk]; norm_num
  have hq : ∀ ep ∈ (Demo.world.runCmds (Spec.trend 3 "UT1") (setup 10 12)).epics, Spec.NoZero 100 ep.lastTick := by
    unfold Spec.NoZero
    decide +kernel
  have hl : ∀ x ∈ day, Spec.CmdQuoted 100 x := by
    intro x hx
    simp only [day, List.mem_cons, List.not_mem_nil, or_false] at hx
    rcases hx with rfl | rfl | rfl | rfl | rfl | rfl | rfl
    · trivial
    all_goals simp only [Spec.CmdQuoted, Spec.NoZero, Demo.tk]; norm_num
  exact (C80_strategies_partial exact_exact hc (C80_trend_partial exact_exact hc 3 "UT1") Demo.world Demo.world_init
    (setup 10 12) day h0 hq hl 0).1

/-- C80 is false for an odd number of cents: values of ticks are rounded to even cents, so one cent more on all quotes turns
"unchanged" into "higher", and the trend strategy buys instead of selling. -/
theorem C80_false : letI := Arith.exact
    let l := setup 10 10 ++ [.addStrategy 0 0, .tick 0 (Demo.tk 956 10 10), .tick 0 (Demo.tk 956 10 (1001 / 100))]
    let own := Spec.tradesOf (Demo.world.runCmds (Spec.trend 3 "UT1") l) 0
    let own' := Spec.tradesOf (Demo.world.runCmds (Spec.trend 3 "UT1") (l.map (Spec.shiftCmd (1 / 100)))) 0
    own.map Trade.dir = [.sell, .sell] ∧ own'.map Trade.dir = [.sell] := by
  letI := Arith.exact
  decide +kernel

/-- C80 is false when an exit quote is 0: the trade is then valued at its open price.  Bought at 0/1 the result is 0, bought at
1/2 it is -1. -/
theorem C80_zero_false : letI := Arith.exact
    let w := Demo.world.runCmds Demo.quiet [.tick 0 (Demo.tk 480 0 1), .op (.openTrade 0 none (some .buy) 1)]
    let w' := Demo.world.runCmds Demo.quiet [.tick 0 (Demo.tk 480 1 2), .op (.openTrade 0 none (some .buy) 1)]
    w.trades.map Trade.result = [0] ∧ w'.trades.map Trade.result = [-1] := by
  letI := Arith.exact
  decide +kernel

end Estrade
