import Verif.Lemmas.Mapping
import Verif.Props.Translation
import Verif.Demo

/-!
# C84: the mirrored market
(estrade/tick.py, estrade/graph/*.py, estrade/trade.py, estrade/trade_provider.py, estrade/epic.py)

Two runs of a whole program, the second on prices mirrored at a level, with buying and selling exchanged.
-/

set_option linter.style.haveILetI false
set_option linter.unusedSectionVars false
set_option autoImplicit false

namespace Estrade

/-- Spec: the mirrored tick: prices `p` become `c - p`, so bid and ask are exchanged. -/
def Spec.flipTick (c : ℚ) (t : Tick) : Tick := { t with bid := c - t.ask, ask := c - t.bid }

/-- Spec: the mirrored indicator value: highs become lows. -/
def Spec.flipVal (c : ℚ) (v : IndVal) : IndVal :=
  { v with
    first := Spec.flipTick c v.first
    high := Spec.flipTick c v.low
    low := Spec.flipTick c v.high
    last := Spec.flipTick c v.last
    closes := v.closes.map (c - ·) }

/-- Spec: the mirrored frame. -/
def Spec.flipFrame (c : ℚ) (f : Frame) : Frame :=
  { f with
    first := Spec.flipTick c f.first
    high := Spec.flipTick c f.low
    low := Spec.flipTick c f.high
    last := Spec.flipTick c f.last
    inds := f.inds.map (fun p => (p.1, p.2.map (Spec.flipVal c))) }

/-- Spec: the mirrored frame set. -/
def Spec.flipFrameSet (c : ℚ) (fs : FrameSet) : FrameSet := { fs with heap := fs.heap.map (Spec.flipFrame c) }

/-- Spec: the mirrored epic. -/
def Spec.flipEpic (c : ℚ) (e : Epic) : Epic :=
  { e with
    lastTick := Spec.flipTick c e.lastTick
    frameSets := e.frameSets.map (fun p => (p.1, Spec.flipFrameSet c p.2)) }

/-- Spec: the other direction. -/
def Spec.other : Dir → Dir
  | .buy => .sell
  | .sell => .buy

/-- Spec: the mirrored close. -/
def Spec.flipClose (c : ℚ) (x : TradeClose) : TradeClose := { x with closeValue := c - x.closeValue }

/-- Spec: the mirrored trade: other direction, mirrored prices, same quantities and results. -/
def Spec.flipTrade (c : ℚ) (t : Trade) : Trade :=
  { t with
    dir := Spec.other t.dir
    openValue := c - t.openValue
    curClose := c - t.curClose
    closes := t.closes.map (Spec.flipClose c) }

/-- Spec: everything mirrored at `c / 2`. -/
def Spec.mirrored (c : ℚ) : Spec.Mapping where
  tick := Spec.flipTick c
  dt := id
  dir := Spec.other
  price := fun p => c - p
  fset := Spec.flipFrameSet c
  epic := Spec.flipEpic c
  trade := Spec.flipTrade c

/-- Spec: a tick whose spread is a whole number of cents. -/
def Spec.CentSpread (t : Tick) : Prop := IsCent (t.ask - t.bid)

/-- Spec: no RSI. -/
def Spec.NoRsi (ind : Indicator) : Prop := ∀ p n, ind.kind ≠ .rsi p n

section
variable [Arith]

/-- What is kept in the values of indicators. -/
structure FlipVal (v : IndVal) : Prop where
  first : Spec.CentSpread v.first
  high : Spec.CentSpread v.high
  low : Spec.CentSpread v.low
  last : Spec.CentSpread v.last
  order : v.low.value ≤ v.high.value
  kind : Spec.NoRsi v.ind

/-- What is kept in frames. -/
structure FlipFrame (f : Frame) : Prop where
  first : Spec.CentSpread f.first
  high : Spec.CentSpread f.high
  low : Spec.CentSpread f.low
  last : Spec.CentSpread f.last
  order : f.low.value ≤ f.high.value
  inds : ∀ ref v, f.get ref = some v → FlipVal v

/-- What is kept in frame sets. -/
structure FlipSet (fs : FrameSet) : Prop where
  frames : ∀ f ∈ fs.heap, FlipFrame f
  inds : ∀ p ∈ fs.indicators, Spec.NoRsi p.2

/-! ## The invariant -/

theorem flipVal_track {v : IndVal} (hv : FlipVal v) {tick : Tick} (ht : Spec.CentSpread tick) (mo : Bool) :
    FlipVal (v.track tick mo) := by
  unfold IndVal.track
  simp only
  split_ifs with h1 h2 h3
  · exact ⟨hv.first, ht, hv.low, ht, le_of_lt (lt_of_le_of_lt hv.order h2), hv.kind⟩
  · exact ⟨hv.first, hv.high, ht, ht, le_of_lt (lt_of_lt_of_le h3 hv.order), hv.kind⟩
  · exact ⟨hv.first, hv.high, hv.low, ht, hv.order, hv.kind⟩
  · exact hv

theorem flipFrame_track {f : Frame} (hf : FlipFrame f) {tick : Tick} (ht : Spec.CentSpread tick) :
    FlipFrame (f.track tick) := by
  unfold Frame.track
  simp only
  split_ifs with h2 h3
  · exact ⟨hf.first, ht, hf.low, ht, le_of_lt (lt_of_le_of_lt hf.order h2), hf.inds⟩
  · exact ⟨hf.first, hf.high, ht, ht, le_of_lt (lt_of_lt_of_le h3 hf.order), hf.inds⟩
  · exact ⟨hf.first, hf.high, hf.low, ht, hf.order, hf.inds⟩

theorem onNewTick_noRsi (heap : List Frame) (f : Frame) (v : IndVal) (hv : Spec.NoRsi v.ind) (tick : Tick) (mo : Bool) :
    v.onNewTick heap f tick mo = .ok (v.track tick mo) := by
  unfold IndVal.onNewTick
  rcases hk : v.ind.kind with _ | _ | _ | _ | _ | _ | ⟨q, n⟩ <;> try rfl
  exact absurd hk (hv q n)

theorem flipVal_build {heap : List Frame} {ind : Indicator} (hi : Spec.NoRsi ind) {id : ℕ} {f : Frame} (hf : FlipFrame f)
    {mo : Bool} {v : IndVal} (h : ind.build heap id f mo = .ok (some v)) : FlipVal v := by
  have hb : FlipVal (IndVal.base ind id f) := ⟨hf.last, hf.last, hf.last, hf.last, le_refl _, hi⟩
  unfold Indicator.build at h
  split_ifs at h
  · have hn : IndVal.new heap ind id f = .ok v := by
      rcases hx : IndVal.new heap ind id f with e | x
      · rw [hx] at h; cases h
      · rw [hx] at h; cases h; rfl
    unfold IndVal.new at hn
    simp only at hn
    rcases hk : ind.kind with _ | _ | _ | _ | _ | mp | ⟨q, n⟩
    case rsi => exact absurd hk (hi q n)
    case sma =>
      rw [hk] at hn
      simp only at hn
      rcases hpv : prevValue heap ind.ref heap.length f.prev with _ | p
      · rw [hpv] at hn
        cases hn
        exact ⟨hb.first, hb.high, hb.low, hb.last, hb.order, hb.kind⟩
      · rw [hpv] at hn
        simp only at hn
        rcases hpc : prevCloses heap p with e | l
        · rw [hpc] at hn
          cases hn
        · rw [hpc] at hn
          cases hn
          exact ⟨hb.first, hb.high, hb.low, hb.last, hb.order, hb.kind⟩
    all_goals
      rw [hk] at hn
      cases hn
      exact hb
  · cases h

theorem flipFrame_set {f : Frame} (hf : FlipFrame f) (ref : String) (v : Option IndVal)
    (hv : ∀ x, v = some x → FlipVal x) : FlipFrame { f with inds := f.inds.set ref v } := by
  refine ⟨hf.first, hf.high, hf.low, hf.last, hf.order, fun r x hx => ?_⟩
  unfold Frame.get at hx
  simp only at hx
  rw [Dict.get?_set] at hx
  split_ifs at hx
  · exact hv x hx
  · exact hf.inds r x hx

theorem flip_feedOne {heap : List Frame} {id : ℕ} {tick : Tick} (ht : Spec.CentSpread tick) {mo : Bool} {f : Frame}
    (hf : FlipFrame f) (p : String × Indicator) (hp : Spec.NoRsi p.2) : FlipFrame (feedOne heap id tick mo f p).1 := by
  unfold feedOne
  rcases hg : f.get p.1 with _ | v
  · simp only
    rcases hb : p.2.build heap id f mo with e | nv
    · exact hf
    · refine flipFrame_set hf _ _ fun x hx => ?_
      rw [hx] at hb
      exact flipVal_build hp hf hb
  · simp only
    have hv := hf.inds _ _ hg
    rw [onNewTick_noRsi heap f v hv.kind]
    refine flipFrame_set hf _ _ fun x hx => ?_
    cases hx
    exact flipVal_track hv ht mo

theorem flip_feedInds {heap : List Frame} {id : ℕ} {tick : Tick} (ht : Spec.CentSpread tick) {mo : Bool} (d : Dict Indicator)
    (hd : ∀ p ∈ d, Spec.NoRsi p.2) : ∀ f : Frame, FlipFrame f → FlipFrame (feedInds heap id tick mo d f).1 := by
  induction d with
  | nil => intro f hf; exact hf
  | cons p d ih =>
    intro f hf
    unfold feedInds
    have h := flip_feedOne (heap := heap) (id := id) ht (mo := mo) hf p (hd p (by simp))
    rcases hx : feedOne heap id tick mo f p with ⟨f', _ | e⟩
    · rw [hx] at h
      exact ih (fun p hp => hd p (by simp [hp])) f' h
    · rw [hx] at h
      exact h

theorem flip_upsert {heap : List Frame} {id : ℕ} {tick : Tick} (ht : Spec.CentSpread tick) {mo : Bool} (d : Dict Indicator)
    (hd : ∀ p ∈ d, Spec.NoRsi p.2) : ∀ f f' : Frame, FlipFrame f → upsert heap id tick mo d f = .ok f' → FlipFrame f' := by
  induction d with
  | nil => intro f f' hf h; cases h; exact hf
  | cons p d ih =>
    intro f f' hf h
    unfold upsert at ih h
    simp only [List.foldlM_cons] at h
    rcases hx : upsertOne heap id tick mo f p with e | g
    · rw [hx] at h; cases h
    · rw [hx] at h
      refine ih (fun p hp => hd p (by simp [hp])) g f' ?_ h
      have hp := hd p (by simp)
      unfold upsertOne at hx
      rcases hg : f.get p.1 with _ | v
      · rw [hg] at hx
        simp only at hx
        rcases hb : p.2.build heap id f mo with e | nv
        · rw [hb] at hx; cases hx
        · rw [hb] at hx
          cases hx
          refine flipFrame_set hf _ _ fun x hx => ?_
          rw [hx] at hb
          exact flipVal_build hp hf hb
      · rw [hg] at hx
        simp only at hx
        have hv := hf.inds _ _ hg
        rw [onNewTick_noRsi heap f v hv.kind] at hx
        cases hx
        refine flipFrame_set hf _ _ fun x hx => ?_
        cases hx
        exact flipVal_track hv ht mo

theorem flip_modify {heap : List Frame} (h : ∀ f ∈ heap, FlipFrame f) (i : ℕ) (g : Frame → Frame)
    (hg : ∀ f, FlipFrame f → FlipFrame (g f)) : ∀ f ∈ heap.modify i g, FlipFrame f := by
  intro f hf
  obtain ⟨j, hj⟩ := List.mem_iff_getElem?.mp hf
  rw [List.getElem?_modify] at hj
  rcases hb : heap[j]? with _ | b
  · rw [hb] at hj; simp at hj
  · rw [hb] at hj
    have := h b (List.mem_of_getElem? hb)
    simp only [Option.map_eq_map, Option.map_some, Option.some.injEq] at hj
    rw [← hj]
    split_ifs
    · exact hg _ this
    · exact this

theorem flip_feedClean (max : ℤ) (l : List ℕ) : ∀ heap : List Frame, (∀ f ∈ heap, FlipFrame f) →
    ∀ f ∈ (feedClean max heap l).1.1, FlipFrame f := by
  induction l with
  | nil => intro heap h; exact h
  | cons a l ih =>
    intro heap h
    rcases l with _ | ⟨b, rest⟩
    · exact h
    · unfold feedClean
      simp only
      split_ifs
      · refine ih _ (flip_modify (flip_modify h _ _ ?_) _ _ ?_)
        · exact fun f hf => ⟨hf.first, hf.high, hf.low, hf.last, hf.order, hf.inds⟩
        · exact fun f hf => ⟨hf.first, hf.high, hf.low, hf.last, hf.order, hf.inds⟩
      · exact h

theorem flip_fresh {tick : Tick} (ht : Spec.CentSpread tick) (ps : ℤ) (pe : Option ℤ) (cur : Option ℕ) :
    FlipFrame (Frame.fresh tick ps pe cur) := by
  refine ⟨ht, ht, ht, ht, le_refl _, fun ref v hv => ?_⟩
  unfold Frame.get Frame.fresh Dict.get? at hv
  simp at hv

theorem flip_feedCreate {fs : FrameSet} (hs : FlipSet fs) (x : Ctx) {tick : Tick} (ht : Spec.CentSpread tick) (ps : ℤ)
    (pe : Option ℤ) : FlipSet (fs.feedCreate x tick ps pe).1 := by
  unfold FrameSet.feedCreate
  simp only
  rcases hu : upsert fs.heap fs.heap.length tick x.marketOpen fs.indicators (Frame.fresh tick ps pe fs.frames.getLast?)
    with e | f
  · exact hs
  · have hf : FlipFrame f := flip_upsert ht _ hs.inds _ _ (flip_fresh ht ps pe _) hu
    refine ⟨flip_feedClean _ _ _ fun g hg => ?_, hs.inds⟩
    rcases List.mem_append.mp hg with h | h
    · unfold linkNext at h
      rcases hl : fs.frames.getLast? with _ | i
      · rw [hl] at h
        exact hs.frames g h
      · rw [hl] at h
        exact flip_modify hs.frames i (fun g => { g with next := some fs.heap.length })
          (fun f hf => ⟨hf.first, hf.high, hf.low, hf.last, hf.order, hf.inds⟩) g h
    · rw [List.mem_singleton.mp h]
      exact hf

theorem flip_currentOk {fs : FrameSet} (hs : FlipSet fs) {i : ℕ} {f : Frame} (h : fs.current = some (i, f)) : FlipFrame f := by
  unfold FrameSet.current at h
  rcases hl : fs.frames.getLast? with _ | j
  · rw [hl] at h; cases h
  · rw [hl] at h
    simp only at h
    rcases hg : fs.heap[j]? with _ | g
    · rw [hg] at h; cases h
    · rw [hg] at h
      have h1 : g = f := congrArg Prod.snd (Option.some.inj h)
      rw [← h1]
      exact hs.frames g (List.mem_of_getElem? hg)

theorem flip_feedFill (x : Ctx) (ps : ℤ) (n : ℕ) : ∀ fs : FrameSet, FlipSet fs → FlipSet (feedFill x ps n fs).1 := by
  induction n with
  | zero =>
    intro fs hs
    unfold feedFill
    rcases fs.current with _ | ⟨i, f⟩
    · exact hs
    · simp only
      rcases f.periodEnd with _ | pe
      · exact hs
      · simp only
        split_ifs <;> exact hs
  | succ n ih =>
    intro fs hs
    unfold feedFill
    rcases hc : fs.current with _ | ⟨i, f⟩
    · exact hs
    · simp only
      rcases f.periodEnd with _ | pe
      · exact hs
      · simp only
        split_ifs
        · have h := flip_feedCreate hs x (flip_currentOk hs hc).last pe (some (frameEnd x.zone fs.unit fs.qty pe))
          rcases hcre : fs.feedCreate x f.last pe (some (frameEnd x.zone fs.unit fs.qty pe)) with ⟨fs', _ | e⟩
          · rw [hcre] at h
            exact ih fs' h
          · rw [hcre] at h
            exact h
        · exact hs

theorem flip_feedOk {fs : FrameSet} (hs : FlipSet fs) (x : Ctx) {tick : Tick} (ht : Spec.CentSpread tick) :
    FlipSet (fs.feed x tick).1 := by
  have hlast : FlipSet (fs.feedLast x tick).1 := by
    unfold FrameSet.feedLast
    rcases hc : fs.current with _ | ⟨i, f⟩
    · exact hs
    · refine ⟨fun g hg => ?_, hs.inds⟩
      rcases List.mem_or_eq_of_mem_set hg with h | h
      · exact hs.frames g h
      · rw [h]
        exact flip_feedInds ht _ hs.inds _ (flipFrame_track (flip_currentOk hs hc) ht)
  unfold FrameSet.feed
  split_ifs
  · exact flip_feedCreate hs x ht _ _
  · exact hlast
  · rcases fs.overTimed tick with e | b
    · exact hs
    · simp only
      split_ifs
      · unfold FrameSet.feedTimed
        rcases frameStart fs.unit fs.qty tick.dt.wall with e | ps
        · exact hs
        · simp only
          have h := flip_feedFill x ps (fillFuel fs ps) fs hs
          rcases hf : feedFill x ps (fillFuel fs ps) fs with ⟨fs', _ | e⟩
          · rw [hf] at h
            exact flip_feedCreate h x ht _ _
          · rw [hf] at h
            exact h
      · exact hlast

theorem flip_updateOk (x : Ctx) {tick : Tick} (ht : Spec.CentSpread tick) (d : Dict FrameSet) (hd : ∀ p ∈ d, FlipSet p.2) :
    ∀ p ∈ (updateFrameSets x tick d).1, FlipSet p.2 := by
  induction d with
  | nil => exact hd
  | cons p d ih =>
    obtain ⟨r, fs⟩ := p
    unfold updateFrameSets
    have h := flip_feedOk (hd (r, fs) (by simp)) x ht
    have ih := ih (fun p hp => hd p (by simp [hp]))
    rcases hf : fs.feed x tick with ⟨fs', _ | e⟩
    · rw [hf] at h
      intro p hp
      rcases List.mem_cons.mp hp with h1 | h1
      · rw [h1]; exact h
      · exact ih p h1
    · rw [hf] at h
      intro p hp
      rcases List.mem_cons.mp hp with h1 | h1
      · rw [h1]; exact h
      · exact hd p (by simp [h1])

/-! ## Numbers -/

section
variable {c : ℚ} (hc : Spec.EvenCents c) (hE : Exact)

include hc in
theorem cent_flip (x : ℚ) : cent (c - x) = c - cent x := by
  have h := cent_add_even hc (-x)
  rw [cent_neg] at h
  have e : c - x = -x + c := by ring
  rw [e, h]
  ring

include hE in
theorem flip_spread (t : Tick) : (Spec.flipTick c t).spread = t.spread := by
  unfold Tick.spread Spec.flipTick
  simp only
  rw [fsub_exact hE, fsub_exact hE]
  congr 1
  ring

include hc hE in
theorem flip_value {t : Tick} (ht : Spec.CentSpread t) : (Spec.flipTick c t).value = c - t.value := by
  unfold Tick.value
  rw [flip_spread hE, rnd_exact hE, rnd_exact hE, fadd_exact hE, fadd_exact hE, ← cent_flip hc]
  have hs : t.spread = t.ask - t.bid := by
    unfold Tick.spread
    rw [rnd_exact hE, fsub_exact hE]
    exact ht.cent
  rw [hs, fdiv_exact hE]
  congr 1
  unfold Spec.flipTick
  simp only
  ring

/-! ## Frames and indicator values -/

theorem flip_get (f : Frame) (ref : String) :
    (Spec.flipFrame c f).get ref = (f.get ref).map (Spec.flipVal c) := by
  unfold Frame.get Spec.flipFrame
  simp only
  rw [Dict.get?_map]
  rcases f.inds.get? ref with _ | _ | v <;> rfl

theorem flip_setInd (f : Frame) (ref : String) (v : Option IndVal) :
    { Spec.flipFrame c f with inds := (Spec.flipFrame c f).inds.set ref (v.map (Spec.flipVal c)) } =
      Spec.flipFrame c { f with inds := f.inds.set ref v } := by
  unfold Spec.flipFrame
  simp only
  rw [Dict.set_map (fun v : Option IndVal => v.map (Spec.flipVal c))]

theorem flip_prevValue (heap : List Frame) (ref : String) (n : ℕ) : ∀ i : Option ℕ,
    prevValue (heap.map (Spec.flipFrame c)) ref n i = (prevValue heap ref n i).map (Spec.flipVal c) := by
  induction n with
  | zero => intro i; rfl
  | succ n ih =>
    intro i
    rcases i with _ | i
    · rfl
    · unfold prevValue
      rw [List.getElem?_map]
      rcases heap[i]? with _ | f
      · rfl
      · simp only [Option.map_some]
        rw [flip_get]
        rcases f.get ref with _ | v
        · exact ih f.prev
        · rfl

include hc hE in
theorem flip_extendedCloses (v : IndVal) {f : Frame} (hf : FlipFrame f) :
    extendedCloses (Spec.flipVal c v) (Spec.flipFrame c f) = (extendedCloses v f).map (c - ·) := by
  unfold extendedCloses
  rw [List.map_append]
  congr 1
  simp only [List.map_cons, List.map_nil]
  rw [← flip_value hc hE hf.last]
  rfl

include hc hE in
theorem flip_prevCloses {heap : List Frame} (hh : ∀ f ∈ heap, FlipFrame f) (p : IndVal) :
    prevCloses (heap.map (Spec.flipFrame c)) (Spec.flipVal c p) = (prevCloses heap p).map (·.map (c - ·)) := by
  unfold prevCloses
  have hk : (Spec.flipVal c p).ind = p.ind := rfl
  have hf : (Spec.flipVal c p).frame = p.frame := rfl
  rw [hk, hf, List.getElem?_map]
  rcases p.ind.kind <;> try rfl
  rcases hg : heap[p.frame]? with _ | g
  · rfl
  · simp only [Option.map_some]
    rw [flip_extendedCloses hc hE _ (hh g (List.mem_of_getElem? hg))]
    rfl

include hc hE in
theorem flip_newVal {heap : List Frame} (hh : ∀ f ∈ heap, FlipFrame f) (ind : Indicator) (hi : Spec.NoRsi ind) (id : ℕ)
    (f : Frame) : IndVal.new (heap.map (Spec.flipFrame c)) ind id (Spec.flipFrame c f) =
      (IndVal.new heap ind id f).map (Spec.flipVal c) := by
  unfold IndVal.new
  have hb : IndVal.base ind id (Spec.flipFrame c f) = Spec.flipVal c (IndVal.base ind id f) := rfl
  have hp : (Spec.flipFrame c f).prev = f.prev := rfl
  have hl : (heap.map (Spec.flipFrame c)).length = heap.length := List.length_map _
  rw [hb, hp, hl, flip_prevValue]
  rcases hk : ind.kind with _ | _ | _ | _ | _ | mp | ⟨q, rp⟩ <;> try rfl
  · simp only
    rcases prevValue heap ind.ref heap.length f.prev with _ | p
    · simp only [Option.map_none, bind, Except.bind]
      have h0 : sliceFrom ([] : List ℚ) ((mp - 1) * -1) = [] := by
        unfold sliceFrom
        split_ifs <;> simp
      rw [h0]
      rfl
    · simp only [Option.map_some]
      rw [flip_prevCloses hc hE hh]
      rcases prevCloses heap p with e | l
      · rfl
      · simp only [Except.map, bind, Except.bind]
        rw [sliceFrom_map]
        rfl
  · exact absurd hk (hi q rp)

include hc hE in
theorem flip_build {heap : List Frame} (hh : ∀ f ∈ heap, FlipFrame f) (ind : Indicator) (hi : Spec.NoRsi ind) (id : ℕ)
    (f : Frame) (mo : Bool) : ind.build (heap.map (Spec.flipFrame c)) id (Spec.flipFrame c f) mo =
      (ind.build heap id f mo).map (Option.map (Spec.flipVal c)) := by
  unfold Indicator.build
  rw [flip_newVal hc hE hh ind hi]
  split_ifs
  · rcases IndVal.new heap ind id f with e | v <;> rfl
  · rfl

include hc hE in
theorem flip_trackVal {v : IndVal} (hv : FlipVal v) {tick : Tick} (ht : Spec.CentSpread tick) (mo : Bool) :
    (Spec.flipVal c v).track (Spec.flipTick c tick) mo = Spec.flipVal c (v.track tick mo) := by
  unfold IndVal.track
  have h1 : (Spec.flipVal c v).high.value = c - v.low.value := flip_value hc hE hv.low
  have h2 : (Spec.flipVal c v).low.value = c - v.high.value := flip_value hc hE hv.high
  have hk : (Spec.flipVal c v).ind = v.ind := rfl
  have ho := hv.order
  simp only [h1, h2, hk, flip_value hc hE ht, sub_lt_sub_iff_left]
  split_ifs with h3 h4 h5 h6
  · exact absurd (lt_of_lt_of_le h4 (ho.trans (le_of_lt h5))) (lt_irrefl _)
  all_goals rfl

include hc hE in
theorem flip_trackFrame {f : Frame} (hf : FlipFrame f) {tick : Tick} (ht : Spec.CentSpread tick) :
    (Spec.flipFrame c f).track (Spec.flipTick c tick) = Spec.flipFrame c (f.track tick) := by
  unfold Frame.track
  have h1 : (Spec.flipFrame c f).high.value = c - f.low.value := flip_value hc hE hf.low
  have h2 : (Spec.flipFrame c f).low.value = c - f.high.value := flip_value hc hE hf.high
  have ho := hf.order
  simp only [h1, h2, flip_value hc hE ht, sub_lt_sub_iff_left]
  split_ifs with h4 h5 h6
  · exact absurd (lt_of_lt_of_le h4 (ho.trans (le_of_lt h5))) (lt_irrefl _)
  all_goals rfl

include hc hE in
theorem flip_upsertOne {heap : List Frame} (hh : ∀ f ∈ heap, FlipFrame f) (id : ℕ) {tick : Tick} (ht : Spec.CentSpread tick)
    (mo : Bool) {f : Frame} (hf : FlipFrame f) (p : String × Indicator) (hp : Spec.NoRsi p.2) :
    upsertOne (heap.map (Spec.flipFrame c)) id (Spec.flipTick c tick) mo (Spec.flipFrame c f) p =
      (upsertOne heap id tick mo f p).map (Spec.flipFrame c) := by
  unfold upsertOne
  rw [flip_get]
  rcases hg : f.get p.1 with _ | v
  · simp only [Option.map_none]
    rw [flip_build hc hE hh p.2 hp]
    rcases p.2.build heap id f mo with e | nv
    · rfl
    · simp only [Except.map, bind, Except.bind]
      rw [flip_setInd]
  · simp only [Option.map_some]
    have hv := hf.inds _ _ hg
    rw [onNewTick_noRsi _ _ _ hv.kind, onNewTick_noRsi _ _ (Spec.flipVal c v) hv.kind, flip_trackVal hc hE hv ht]
    exact congrArg Except.ok (flip_setInd f p.1 (some (v.track tick mo)))

include hc hE in
theorem flip_upsertMap {heap : List Frame} (hh : ∀ f ∈ heap, FlipFrame f) (id : ℕ) {tick : Tick} (ht : Spec.CentSpread tick)
    (mo : Bool) (d : Dict Indicator) (hd : ∀ p ∈ d, Spec.NoRsi p.2) : ∀ f : Frame, FlipFrame f →
    upsert (heap.map (Spec.flipFrame c)) id (Spec.flipTick c tick) mo d (Spec.flipFrame c f) =
      (upsert heap id tick mo d f).map (Spec.flipFrame c) := by
  induction d with
  | nil => intro f _; rfl
  | cons p d ih =>
    intro f hf
    have h1 := flip_upsert (heap := heap) (id := id) ht (mo := mo) [p] (fun q hq => hd q (by
      rw [List.mem_singleton.mp hq]; simp)) f
    unfold upsert at ih h1 ⊢
    simp only [List.foldlM_cons, List.foldlM_nil] at h1 ⊢
    rw [flip_upsertOne hc hE hh id ht mo hf p (hd p (by simp))]
    rcases hx : upsertOne heap id tick mo f p with e | f'
    · rfl
    · rw [hx] at h1
      exact ih (fun p hp => hd p (by simp [hp])) f' (h1 f' hf rfl)

include hc hE in
theorem flip_feedOneMap {heap : List Frame} (hh : ∀ f ∈ heap, FlipFrame f) (id : ℕ) {tick : Tick} (ht : Spec.CentSpread tick)
    (mo : Bool) {f : Frame} (hf : FlipFrame f) (p : String × Indicator) (hp : Spec.NoRsi p.2) :
    feedOne (heap.map (Spec.flipFrame c)) id (Spec.flipTick c tick) mo (Spec.flipFrame c f) p =
      (Spec.flipFrame c (feedOne heap id tick mo f p).1, (feedOne heap id tick mo f p).2) := by
  unfold feedOne
  rw [flip_get]
  rcases hg : f.get p.1 with _ | v
  · simp only [Option.map_none]
    rw [flip_build hc hE hh p.2 hp]
    rcases p.2.build heap id f mo with e | nv
    · rfl
    · simp only [Except.map]
      rw [flip_setInd]
  · simp only [Option.map_some]
    have hv := hf.inds _ _ hg
    rw [onNewTick_noRsi _ _ _ hv.kind, onNewTick_noRsi _ _ (Spec.flipVal c v) hv.kind, flip_trackVal hc hE hv ht]
    exact congrArg (·, none) (flip_setInd f p.1 (some (v.track tick mo)))

include hc hE in
theorem flip_feedIndsMap {heap : List Frame} (hh : ∀ f ∈ heap, FlipFrame f) (id : ℕ) {tick : Tick}
    (ht : Spec.CentSpread tick) (mo : Bool) (d : Dict Indicator) (hd : ∀ p ∈ d, Spec.NoRsi p.2) : ∀ f : Frame, FlipFrame f →
    feedInds (heap.map (Spec.flipFrame c)) id (Spec.flipTick c tick) mo d (Spec.flipFrame c f) =
      (Spec.flipFrame c (feedInds heap id tick mo d f).1, (feedInds heap id tick mo d f).2) := by
  induction d with
  | nil => intro f _; rfl
  | cons p d ih =>
    intro f hf
    unfold feedInds
    have hp := hd p (by simp)
    have h1 := flip_feedOne (heap := heap) (id := id) ht (mo := mo) hf p hp
    rw [flip_feedOneMap hc hE hh id ht mo hf p hp]
    rcases hx : feedOne heap id tick mo f p with ⟨f', _ | e⟩
    · rw [hx] at h1
      exact ih (fun p hp => hd p (by simp [hp])) f' h1
    · rfl

theorem flip_feedCleanMap (max : ℤ) (l : List ℕ) : ∀ heap : List Frame,
    feedClean max (heap.map (Spec.flipFrame c)) l =
      (((feedClean max heap l).1.1.map (Spec.flipFrame c), (feedClean max heap l).1.2), (feedClean max heap l).2) := by
  induction l with
  | nil => intro heap; rfl
  | cons a l ih =>
    intro heap
    rcases l with _ | ⟨b, rest⟩
    · rfl
    · unfold feedClean
      simp only
      split_ifs
      · rw [map_modify_comm (Spec.flipFrame c) (fun f => { f with prev := none }) _ (fun f => rfl),
          map_modify_comm (Spec.flipFrame c) (fun f => { f with next := none }) _ (fun f => rfl)]
        exact ih _
      · rfl

theorem flip_linkNext (heap : List Frame) (cur : Option ℕ) (id : ℕ) :
    linkNext (heap.map (Spec.flipFrame c)) cur id = (linkNext heap cur id).map (Spec.flipFrame c) := by
  unfold linkNext
  rcases cur with _ | i
  · rfl
  · exact map_modify_comm (Spec.flipFrame c) (fun f => { f with next := some id }) _ (fun f => rfl) heap i

/-- Spec: outcome of a call on a frame set, mirrored. -/
def Spec.flipFed (c : ℚ) (r : FrameSet × Option PyErr) : FrameSet × Option PyErr := (Spec.flipFrameSet c r.1, r.2)

include hc hE in
theorem flip_feedCreateMap {fs : FrameSet} (hs : FlipSet fs) (x : Ctx) {tick : Tick} (ht : Spec.CentSpread tick) (ps : ℤ)
    (pe : Option ℤ) : (Spec.flipFrameSet c fs).feedCreate x (Spec.flipTick c tick) ps pe =
      Spec.flipFed c (fs.feedCreate x tick ps pe) := by
  unfold FrameSet.feedCreate
  have hh : (Spec.flipFrameSet c fs).heap = fs.heap.map (Spec.flipFrame c) := rfl
  have hl : (fs.heap.map (Spec.flipFrame c)).length = fs.heap.length := List.length_map _
  have hf : (Spec.flipFrameSet c fs).frames = fs.frames := rfl
  have hi : (Spec.flipFrameSet c fs).indicators = fs.indicators := rfl
  have hm : (Spec.flipFrameSet c fs).maxFrames = fs.maxFrames := rfl
  have hn : Frame.fresh (Spec.flipTick c tick) ps pe fs.frames.getLast? =
      Spec.flipFrame c (Frame.fresh tick ps pe fs.frames.getLast?) := rfl
  simp only [hh, hl, hf, hi, hm, hn]
  rw [flip_upsertMap hc hE hs.frames _ ht _ _ hs.inds _ (flip_fresh ht ps pe _)]
  rcases upsert fs.heap fs.heap.length tick x.marketOpen fs.indicators (Frame.fresh tick ps pe fs.frames.getLast?)
    with e | f
  · rfl
  · simp only [Except.map]
    have happ : linkNext (fs.heap.map (Spec.flipFrame c)) fs.frames.getLast? fs.heap.length ++ [Spec.flipFrame c f] =
        (linkNext fs.heap fs.frames.getLast? fs.heap.length ++ [f]).map (Spec.flipFrame c) := by
      rw [flip_linkNext, List.map_append]; rfl
    rw [happ, flip_feedCleanMap]
    rfl

theorem flip_current (fs : FrameSet) :
    (Spec.flipFrameSet c fs).current = fs.current.map (fun p => (p.1, Spec.flipFrame c p.2)) := by
  unfold FrameSet.current
  have hh : (Spec.flipFrameSet c fs).heap = fs.heap.map (Spec.flipFrame c) := rfl
  have hf : (Spec.flipFrameSet c fs).frames = fs.frames := rfl
  rw [hh, hf]
  rcases fs.frames.getLast? with _ | i
  · rfl
  · simp only
    rw [List.getElem?_map]
    rcases fs.heap[i]? with _ | f <;> rfl

include hc hE in
theorem flip_feedFillMap (x : Ctx) (ps : ℤ) (n : ℕ) : ∀ fs : FrameSet, FlipSet fs →
    feedFill x ps n (Spec.flipFrameSet c fs) = Spec.flipFed c (feedFill x ps n fs) := by
  induction n with
  | zero =>
    intro fs _
    unfold feedFill
    rw [flip_current]
    rcases fs.current with _ | ⟨i, f⟩
    · rfl
    · simp only [Option.map_some]
      have hp : (Spec.flipFrame c f).periodEnd = f.periodEnd := rfl
      rw [hp]
      rcases f.periodEnd with _ | pe
      · rfl
      · simp only
        split_ifs <;> rfl
  | succ n ih =>
    intro fs hs
    unfold feedFill
    rw [flip_current]
    rcases hcur : fs.current with _ | ⟨i, f⟩
    · rfl
    · simp only [Option.map_some]
      have hp : (Spec.flipFrame c f).periodEnd = f.periodEnd := rfl
      have hlast : (Spec.flipFrame c f).last = Spec.flipTick c f.last := rfl
      have hu : (Spec.flipFrameSet c fs).unit = fs.unit := rfl
      have hq : (Spec.flipFrameSet c fs).qty = fs.qty := rfl
      rw [hp, hlast, hu, hq]
      rcases f.periodEnd with _ | pe
      · rfl
      · simp only
        split_ifs
        · have ht := (flip_currentOk hs hcur).last
          have h := flip_feedCreate hs x ht pe (some (frameEnd x.zone fs.unit fs.qty pe))
          rw [flip_feedCreateMap hc hE hs x ht]
          rcases hcre : fs.feedCreate x f.last pe (some (frameEnd x.zone fs.unit fs.qty pe)) with ⟨fs', _ | e⟩
          · rw [hcre] at h
            exact ih fs' h
          · rfl
        · rfl

theorem flip_fillFuel (fs : FrameSet) (ps : ℤ) : fillFuel (Spec.flipFrameSet c fs) ps = fillFuel fs ps := by
  unfold fillFuel
  rw [flip_current]
  rcases fs.current with _ | ⟨i, f⟩ <;> rfl

include hc hE in
theorem flip_feedMap {fs : FrameSet} (hs : FlipSet fs) (x : Ctx) {tick : Tick} (ht : Spec.CentSpread tick) :
    (Spec.flipFrameSet c fs).feed x (Spec.flipTick c tick) = Spec.flipFed c (fs.feed x tick) := by
  have hu : (Spec.flipFrameSet c fs).unit = fs.unit := rfl
  have hq : (Spec.flipFrameSet c fs).qty = fs.qty := rfl
  have hd : (Spec.flipTick c tick).dt = tick.dt := rfl
  have hlast : (Spec.flipFrameSet c fs).feedLast x (Spec.flipTick c tick) = Spec.flipFed c (fs.feedLast x tick) := by
    unfold FrameSet.feedLast
    rw [flip_current]
    rcases hcur : fs.current with _ | ⟨i, f⟩
    · rfl
    · simp only [Option.map_some]
      have hh : (Spec.flipFrameSet c fs).heap = fs.heap.map (Spec.flipFrame c) := rfl
      have hi : (Spec.flipFrameSet c fs).indicators = fs.indicators := rfl
      have hf := flip_currentOk hs hcur
      rw [flip_trackFrame hc hE hf ht, hh, hi, flip_feedIndsMap hc hE hs.frames _ ht _ _ hs.inds _ (flipFrame_track hf ht)]
      unfold Spec.flipFed Spec.flipFrameSet
      simp only [List.map_set]
  have hover : (Spec.flipFrameSet c fs).overTick x (Spec.flipTick c tick) = fs.overTick x tick := by
    unfold FrameSet.overTick
    rw [flip_current, hq, hd]
    rcases fs.current with _ | ⟨i, f⟩ <;> rfl
  have htimed : (Spec.flipFrameSet c fs).overTimed (Spec.flipTick c tick) = fs.overTimed tick := by
    unfold FrameSet.overTimed
    rw [flip_current, hd]
    rcases fs.current with _ | ⟨i, f⟩ <;> rfl
  have hft : (Spec.flipFrameSet c fs).feedTimed x (Spec.flipTick c tick) = Spec.flipFed c (fs.feedTimed x tick) := by
    unfold FrameSet.feedTimed
    rw [hu, hq, hd]
    rcases frameStart fs.unit fs.qty tick.dt.wall with e | ps
    · rfl
    · simp only
      rw [flip_fillFuel, flip_feedFillMap hc hE x ps _ fs hs]
      have h := flip_feedFill x ps (fillFuel fs ps) fs hs
      rcases hf : feedFill x ps (fillFuel fs ps) fs with ⟨fs', _ | e⟩
      · rw [hf] at h
        exact flip_feedCreateMap hc hE h x ht ps _
      · rfl
  unfold FrameSet.feed
  rw [hu, hover, htimed, hlast, hft, hd, flip_feedCreateMap hc hE hs x ht]
  split_ifs
  · rfl
  · rfl
  · rcases fs.overTimed tick with e | b
    · rfl
    · simp only
      split_ifs <;> rfl

include hc hE in
theorem flip_updateFrameSets (x : Ctx) {tick : Tick} (ht : Spec.CentSpread tick) (d : Dict FrameSet)
    (hd : ∀ p ∈ d, FlipSet p.2) :
    updateFrameSets x (Spec.flipTick c tick) (d.map (fun p => (p.1, Spec.flipFrameSet c p.2))) =
      ((updateFrameSets x tick d).1.map (fun p => (p.1, Spec.flipFrameSet c p.2)), (updateFrameSets x tick d).2) := by
  induction d with
  | nil => rfl
  | cons p d ih =>
    obtain ⟨k, fs⟩ := p
    simp only [List.map_cons]
    unfold updateFrameSets
    rw [flip_feedMap hc hE (hd (k, fs) (by simp)) x ht]
    rcases fs.feed x tick with ⟨fs', _ | e⟩
    · simp only [Spec.flipFed]
      rw [ih (fun p hp => hd p (by simp [hp]))]
      rfl
    · rfl

include hc hE in
theorem flip_accept (ep : Epic) (hep : ∀ p ∈ ep.frameSets, FlipSet p.2) {tick : Tick} (ht : Spec.CentSpread tick) :
    (Spec.flipEpic c ep).accept (Spec.flipTick c tick) =
      (Spec.flipEpic c (ep.accept tick).1, (ep.accept tick).2) := by
  unfold Epic.accept
  have h := flip_updateFrameSets hc hE
    ⟨ep.zone, some (({ ep with lastTick := tick } : Epic).isMarketOpen, ordOf tick.dt.wall)⟩ ht ep.frameSets hep
  have h' := congrArg (fun r : Dict FrameSet × Option PyErr => (({ Spec.flipEpic c ep with
      lastTick := Spec.flipTick c tick
      marketOpen := ({ ep with lastTick := tick } : Epic).isMarketOpen
      frameSets := r.1 } : Epic), r.2)) h
  exact h'

/-! ## Trades -/

theorem flip_closedQty (t : Trade) : (Spec.flipTrade c t).closedQty = t.closedQty := by
  unfold Trade.closedQty Spec.flipTrade
  simp only [List.map_map]
  rfl

theorem flip_openedQty (t : Trade) : (Spec.flipTrade c t).openedQty = t.openedQty := by
  unfold Trade.openedQty
  rw [flip_closedQty]
  rfl

theorem flip_closed (t : Trade) : (Spec.flipTrade c t).closed = t.closed := by
  unfold Trade.closed
  rw [flip_openedQty]

include hE in
theorem flip_closeResult (d : Dir) (o : ℚ) (x : TradeClose) :
    closeResult (Spec.other d) (c - o) (Spec.flipClose c x) = closeResult d o x := by
  unfold closeResult
  have h : closeResultAvg (Spec.other d) (c - o) (Spec.flipClose c x) = closeResultAvg d o x := by
    unfold closeResultAvg Spec.flipClose Spec.other
    rcases d <;> simp only <;> rw [fsub_exact hE, fsub_exact hE, sub_sub_sub_cancel_left]
  rw [h]
  rfl

include hE in
theorem flip_closedResult (t : Trade) : (Spec.flipTrade c t).closedResult = t.closedResult := by
  unfold Trade.closedResult Spec.flipTrade
  simp only [List.map_map]
  congr 1
  exact List.map_congr_left fun x _ => flip_closeResult hE _ _ _

include hE in
theorem flip_openedResultAvg (t : Trade) : (Spec.flipTrade c t).openedResultAvg = t.openedResultAvg := by
  unfold Trade.openedResultAvg
  rw [flip_closed]
  unfold Spec.flipTrade Spec.other
  rcases t.dir <;> simp only <;> rw [fsub_exact hE, fsub_exact hE, sub_sub_sub_cancel_left]

include hE in
theorem flip_result (t : Trade) : (Spec.flipTrade c t).result = t.result := by
  unfold Trade.result Trade.openedResult
  rw [flip_openedResultAvg hE, flip_openedQty, flip_closedResult hE]

include hE in
theorem flip_new (d : Dir) (q : ℤ) (o : ℚ) (dt : DT) (e : ℕ) (x : ℚ) (h1 : x ≠ 0) (h2 : c - x ≠ 0) (s : Option ℕ)
    (st : Status) : Trade.new (Spec.other d) q (c - o) dt e (some (c - x)) s st =
      Spec.flipTrade c (Trade.new d q o dt e (some x) s st) := by
  have h := flip_result (c := c) hE ⟨e, s, d, q, [], o, x, 0, 0, dt, st⟩
  unfold Trade.new
  simp only [if_neg h1, if_neg h2]
  unfold Spec.flipTrade at h ⊢
  simp only [List.map_nil] at h ⊢
  rw [h]

/-- Spec: no quote of the tick is 0, neither in the mirror. -/
def Spec.NoZeroFlip (c : ℚ) (t : Tick) : Prop := t.bid ≠ 0 ∧ t.bid ≠ c ∧ t.ask ≠ 0 ∧ t.ask ≠ c

include hE in
theorem flip_openFromTick (tick : Tick) (hz : Spec.NoZeroFlip c tick) (e : ℕ) (d : Option Dir) (q : ℤ) (s : Option ℕ) :
    Trade.openFromTick (Spec.flipTick c tick) e (d.map Spec.other) q s =
      (Trade.openFromTick tick e d q s).map (Spec.flipTrade c) := by
  obtain ⟨h1, h2, h3, h4⟩ := hz
  rcases d with _ | d
  · rfl
  · rcases d
    · exact congrArg Except.ok (flip_new hE .buy q tick.ask tick.dt e tick.bid h1 (sub_ne_zero.mpr (Ne.symm h2)) s .created)
    · exact congrArg Except.ok (flip_new hE .sell q tick.bid tick.dt e tick.ask h3 (sub_ne_zero.mpr (Ne.symm h4)) s .created)

include hE in
theorem flip_updateMinMax (t : Trade) : (Spec.flipTrade c t).updateMinMax = Spec.flipTrade c t.updateMinMax := by
  have h1 : (Spec.flipTrade c t).maxRes < (Spec.flipTrade c t).result ↔ t.maxRes < t.result := by
    rw [flip_result hE]; rfl
  have h3 : ∀ u : Trade, (Spec.flipTrade c u).result < (Spec.flipTrade c u).minRes ↔ u.result < u.minRes := by
    intro u
    rw [flip_result hE]; rfl
  unfold Trade.updateMinMax
  simp only [h1]
  have h4 : (if t.maxRes < t.result then { Spec.flipTrade c t with maxRes := (Spec.flipTrade c t).result }
      else Spec.flipTrade c t) =
      Spec.flipTrade c (if t.maxRes < t.result then { t with maxRes := t.result } else t) := by
    split_ifs
    · rw [flip_result hE]; rfl
    · rfl
  rw [h4]
  simp only [h3]
  generalize (if t.maxRes < t.result then { t with maxRes := t.result } else t) = u
  split_ifs
  · rw [flip_result hE]; rfl
  · rfl

include hE in
theorem flip_update (t : Trade) (v : ℚ) : (Spec.flipTrade c t).update (c - v) = Spec.flipTrade c (t.update v) := by
  unfold Trade.update
  rw [flip_closed]
  split_ifs
  · rfl
  · exact flip_updateMinMax hE { t with curClose := v }

include hE in
theorem flip_updateFromTick (t : Trade) (x : Tick) :
    (Spec.flipTrade c t).updateFromTick (Spec.flipTick c x) = Spec.flipTrade c (t.updateFromTick x) := by
  unfold Trade.updateFromTick
  rw [← flip_update hE]
  have hd : (Spec.flipTrade c t).dir = Spec.other t.dir := rfl
  rw [hd]
  rcases t.dir <;> rfl

theorem flip_close (t : Trade) (v : ℚ) (dt : DT) (q : Option ℤ) :
    (Spec.flipTrade c t).close (c - v) dt q = Spec.flipTrade c (t.close v dt q) := by
  unfold Trade.close
  have h : (Spec.flipTrade c t).closeQty q = t.closeQty q := by
    unfold Trade.closeQty
    rw [flip_openedQty]
  rw [h]
  unfold Spec.flipTrade
  simp only [List.map_append]
  rfl

include hE in
theorem flip_closeFromTick (t : Trade) (x : Tick) (q : Option ℤ) :
    (Spec.flipTrade c t).closeFromTick (Spec.flipTick c x) q = Spec.flipTrade c (t.closeFromTick x q) := by
  unfold Trade.closeFromTick
  simp only
  rw [flip_updateFromTick hE]
  exact flip_close (t.updateFromTick x) _ _ _

/-! ## Worlds -/

/-- The restrictions: no RSI, spreads in whole cents, no quote 0 or `c`. -/
def flippable (c : ℚ) : Allowed where
  epic := fun ep => ∀ p ∈ ep.frameSets, FlipSet p.2
  last := fun t => Spec.NoZeroFlip c t ∧ Spec.CentSpread t
  tick := fun t => Spec.NoZeroFlip c t ∧ Spec.CentSpread t
  fset := FlipSet
  ind := Spec.NoRsi

theorem flip_memSet {d : Dict FrameSet} {P : FrameSet → Prop} (hd : ∀ p ∈ d, P p.2) (ref : String) (fs : FrameSet)
    (hfs : P fs) : ∀ p ∈ d.set ref fs, P p.2 := by
  intro p hp
  unfold Dict.set at hp
  split_ifs at hp
  · obtain ⟨a, ha, rfl⟩ := List.mem_map.mp hp
    split_ifs
    · exact hfs
    · exact hd a ha
  · rcases List.mem_append.mp hp with h | h
    · exact hd p h
    · rw [List.mem_singleton.mp h]; exact hfs

theorem addIndicator_noRsi (fs : FrameSet) (ind : Indicator) (hi : Spec.NoRsi ind) :
    fs.addIndicator ind = ({ fs with indicators := fs.indicators.set ind.ref ind }, none) := by
  unfold FrameSet.addIndicator
  rcases hk : ind.kind with _ | _ | _ | _ | _ | mp | ⟨q, n⟩ <;> try rfl
  exact absurd hk (hi q n)

include hc hE in
theorem mirrored_lawful : Lawful (Spec.mirrored c) (flippable c) where
  tick_dt := fun _ => rfl
  dt_lt := fun _ _ => rfl
  dir_opposite := fun d => by rcases d <;> rfl
  dir_inj := fun d d' h => by rcases d <;> rcases d' <;> first | rfl | cases h
  trade_epic := fun _ => rfl
  trade_strategy := fun _ => rfl
  trade_dir := fun _ => rfl
  trade_openQty := fun _ => rfl
  trade_openedQty := flip_openedQty
  trade_closes := fun t => List.length_map _
  trade_setQty := fun _ _ => rfl
  trade_setStatus := fun _ _ => rfl
  trade_setClose := by
    intro t i st
    unfold Spec.mirrored Spec.flipTrade
    simp only
    rw [map_modify_comm (Spec.flipClose c) (fun c => { c with status := st }) (fun c => { c with status := st })
      (fun _ => rfl)]
  trade_update := flip_update hE
  trade_updateFromTick := flip_updateFromTick hE
  trade_close := flip_close
  trade_closeFromTick := flip_closeFromTick hE
  trade_open := fun x hx => flip_openFromTick hE x hx.1
  epic_lastTick := fun _ => rfl
  epic_provider := fun _ => rfl
  epic_marketOpen := fun _ => rfl
  fsetRef_inj := Function.injective_id
  stratRef_inj := Function.injective_id
  epicRef_inj := Function.injective_id
  epic_strategies := fun _ => (List.map_id _).symm
  epic_ref := fun _ => rfl
  epic_frameSets := fun _ => rfl
  epic_setStrategies := fun ep d => by
    have h : d.map (fun p : String × ℕ => (id p.1, p.2)) = d := List.map_id _
    exact (congrArg (fun x => ({ Spec.flipEpic c ep with strategies := x } : Epic)) h).symm
  epic_setFrameSets := fun _ _ => rfl
  epic_convert := fun _ _ _ _ => rfl
  tick_setDt := fun _ _ => rfl
  epic_accept := fun ep x hep hx => flip_accept hc hE ep hep (tick := { x with dt := x.dt.to ep.zone }) hx.2
  fset_addIndicator := by
    intro fs ind hi
    have h1 := addIndicator_noRsi (Spec.flipFrameSet c fs) ind hi
    rw [addIndicator_noRsi _ _ hi]
    exact h1
  last_tick := fun _ _ h => h
  allowed_last := fun _ _ h => h
  epic_setLast := fun _ _ => rfl
  allowed_strategies := fun _ _ h => h
  allowed_accept := fun ep x hep hx => flip_updateOk _ (tick := { x with dt := x.dt.to ep.zone }) hx.2 _ hep
  allowed_frameSet := fun ep ref fs h hfs _ => flip_memSet h ref fs hfs
  allowed_indicator := by
    intro ep ref fs ind h hi hg
    refine flip_memSet h ref _ ?_
    rw [addIndicator_noRsi _ _ hi]
    have hs := h (ref, fs) (Dict.mem_of_get? hg)
    refine ⟨hs.frames, fun p hp => ?_⟩
    unfold Dict.set at hp
    simp only at hp
    split_ifs at hp
    · obtain ⟨a, ha, rfl⟩ := List.mem_map.mp hp
      split_ifs
      · exact hi
      · exact hs.inds a ha
    · rcases List.mem_append.mp hp with h | h
      · exact hs.inds p h
      · rw [List.mem_singleton.mp h]; exact hi

theorem mirrored_starts : Starts (Spec.mirrored c) (fun _ x => x.bid ≠ 0) where
  real := fun _ _ h he => h (congrArg Tick.bid he)
  order := fun _ _ _ => rfl

theorem mirrored_start (w : World) (hw : w.Init) : (Spec.mirrored c).start w = w := by
  have h1 : w.epics.map (Spec.mirrored c).startEpic = w.epics := by
    conv_rhs => rw [← List.map_id w.epics]
    refine List.map_congr_left fun ep hep => ?_
    obtain ⟨_, _, _, _, _, _, _, _, rfl⟩ := hw.epics ep hep
    unfold Spec.Mapping.startEpic
    rw [if_pos (by rfl)]
    rfl
  have h2 : w.strategies.map (Spec.mirrored c).strategy = w.strategies := by
    conv_rhs => rw [← List.map_id w.strategies]
    refine List.map_congr_left fun s hs => ?_
    obtain ⟨_, rfl⟩ := hw.strategies s hs
    rfl
  have h3 := hw.trades
  have h4 := hw.log
  unfold Spec.Mapping.start Spec.Mapping.world
  rw [h1, h2, h3, h4]
  rcases w with ⟨_, _, _, _, _⟩
  simp_all

theorem init_flippable (w : World) (hw : w.Init) : Early (flippable c) w := by
  refine ⟨Or.inl hw.trades, fun ep hep => ?_⟩
  obtain ⟨_, _, _, _, _, _, _, _, rfl⟩ := hw.epics ep hep
  exact ⟨fun p hp => (List.not_mem_nil hp).elim, fun h => absurd rfl h⟩

end

/-! ## C84 -/

/-- Spec: a program without RSI, with spreads in whole cents and without quotes 0 and `c`, that first gives every epic a
tick. -/
def Spec.Flippable (c : ℚ) (env : Env) (w : World) (l : List Cmd) : Prop :=
  Spec.Program (flippable c) (fun _ x => x.bid ≠ 0) env w l

section
variable {c : ℚ} (hc : Spec.EvenCents c) (hE : Exact) {env env' : Env}
  (henv : (Spec.mirrored c).RelEnv (flippable c) env env') (w : World) (hw : w.Init)
  (l : List Cmd) (hl : Spec.Flippable c env w l)
include hc hE henv hw hl

/-- C84: two runs of a program, the second with all prices `p` replaced by `c - p` (so bids and asks are exchanged), with
buying and selling exchanged, and user code taking the mirrored decisions: the second run ends in the mirrored world of the
first one.  Missing: RSI, odd cents, other spreads and quotes 0, see the `_false` theorems. -/
theorem C84_mirror_partial :
    w.runCmds env' (l.map (Spec.mirrored c).cmd) = (Spec.mirrored c).world (w.runCmds env l) := by
  have h := map_program (mirrored_lawful hc hE) henv mirrored_starts l w (init_flippable w hw) hl
  rwa [mirrored_start w hw] at h

/-- C84, trades: in the mirrored run trade `i` has the other direction, mirrored prices, and the same quantities, dates, statuses
and results. -/
theorem C84_trades_partial (i : ℕ) (t : Trade) (ht : (w.runCmds env l).trades[i]? = some t) :
    ∃ t', (w.runCmds env' (l.map (Spec.mirrored c).cmd)).trades[i]? = some t' ∧
      t'.dir ≠ t.dir ∧ t'.dt = t.dt ∧ t'.status = t.status ∧ t'.openQty = t.openQty ∧ t'.openedQty = t.openedQty ∧
      t'.openValue = c - t.openValue ∧ t'.curClose = c - t.curClose ∧ t'.result = t.result ∧
      t'.maxRes = t.maxRes ∧ t'.minRes = t.minRes ∧ t'.resultAvg = t.resultAvg ∧
      t'.closes.map (fun x => (x.closeValue, x.qty, x.dt, x.status)) =
        t.closes.map (fun x => (c - x.closeValue, x.qty, x.dt, x.status)) := by
  rw [C84_mirror_partial hc hE henv w hw l hl]
  refine ⟨Spec.flipTrade c t, by rw [map_trade?, ht]; rfl, ?_, rfl, rfl, rfl, flip_openedQty t, rfl, rfl,
    flip_result hE t, rfl, rfl, ?_, ?_⟩
  · change Spec.other t.dir ≠ t.dir
    rcases t.dir <;> decide
  · unfold Trade.resultAvg
    rw [flip_result hE]
    rfl
  · unfold Spec.flipTrade
    simp only [List.map_map]
    rfl

/-- C84, strategies: in the mirrored run result and profit factor are the same. -/
theorem C84_strategies_partial (s : ℕ) :
    let own := Spec.tradesOf (w.runCmds env l) s
    let own' := Spec.tradesOf (w.runCmds env' (l.map (Spec.mirrored c).cmd)) s
    strategyResult own' .none = strategyResult own .none ∧ profitFactor own' .none = profitFactor own .none := by
  simp only
  have hof : Spec.tradesOf ((Spec.mirrored c).world (w.runCmds env l)) s =
      (Spec.tradesOf (w.runCmds env l) s).map (Spec.flipTrade c) := by
    unfold Spec.tradesOf
    rw [map_strategy?]
    rcases (w.runCmds env l).strategies[s]? with _ | st
    · rfl
    · simp only [Option.map_some]
      rw [List.map_filterMap]
      exact List.filterMap_congr (fun i _ => map_trade? _ i)
  rw [C84_mirror_partial hc hE henv w hw l hl, hof]
  generalize Spec.tradesOf (w.runCmds env l) s = L
  constructor
  · unfold strategyResult TradesArg.resolve
    simp only [List.map_map]
    have h : L.map (Trade.result ∘ Spec.flipTrade c) = L.map Trade.result :=
      List.map_congr_left (fun t _ => flip_result hE t)
    rw [h]
  · unfold profitFactor TradesArg.resolve
    simp only
    have h : pfSums (L.map (Spec.flipTrade c)) = pfSums L := by
      unfold pfSums
      rw [List.foldl_map]
      simp only [flip_result hE]
    rw [h]

/-- C84, callbacks: in the mirrored run the same callbacks are called in the same order. -/
theorem C84_callbacks_partial :
    (w.runCmds env' (l.map (Spec.mirrored c).cmd)).log.filterMap
        (fun | .notify s e cb => some (s, e, cb) | .accepted _ _ => none) =
      (w.runCmds env l).log.filterMap (fun | .notify s e cb => some (s, e, cb) | .accepted _ _ => none) := by
  rw [C84_mirror_partial hc hE henv w hw l hl]
  unfold Spec.Mapping.world
  simp only
  rw [List.filterMap_map]
  refine List.filterMap_congr fun x _ => ?_
  rcases x <;> rfl

/-- C84, exceptions: after such a program, a further command raises in the mirrored run what it raises in the first run. -/
theorem C84_exceptions_partial (x : Cmd) (hx : (flippable c).cmd x) :
    ((w.runCmds env' (l.map (Spec.mirrored c).cmd)).exec env' ((Spec.mirrored c).cmd x)).2 =
      ((w.runCmds env l).exec env x).2 := by
  have hA := allowed_program (mirrored_lawful hc hE) mirrored_starts henv l w (init_flippable w hw) hl
  rw [C84_mirror_partial hc hE henv w hw l hl, map_exec (mirrored_lawful hc hE) henv _ hA x hx]
  rfl

omit hc hE henv w hw l hl in
theorem flip_getFrame (ep : Epic) (ref : String) (n : ℤ) :
    (Spec.flipEpic c ep).getFrame ref n = (ep.getFrame ref n).map (·.map (Spec.flipFrame c)) := by
  unfold Epic.getFrame
  have hg : (Spec.flipEpic c ep).frameSets.get? ref = (ep.frameSets.get? ref).map (Spec.flipFrameSet c) :=
    Dict.get?_map _ _ _
  rw [hg]
  rcases ep.frameSets.get? ref with _ | fs
  · rfl
  · simp only [Option.map_some, Except.map]
    unfold FrameSet.getItem Spec.flipFrameSet
    simp only
    rcases pyGet fs.frames ((n + 1) * -1) with _ | i
    · rfl
    · simp only [Option.bind_some]
      rw [List.getElem?_map]

omit hc hE henv w hw l hl in
theorem getFrame_flip {ep : Epic} (hep : ∀ p ∈ ep.frameSets, FlipSet p.2) {ref : String} {n : ℤ} {f : Frame}
    (hf : ep.getFrame ref n = .ok (some f)) : FlipFrame f := by
  unfold Epic.getFrame at hf
  rcases hg : ep.frameSets.get? ref with _ | fs
  · rw [hg] at hf; cases hf
  · rw [hg] at hf
    have hs := hep (ref, fs) (Dict.mem_of_get? hg)
    have hf := Except.ok.inj hf
    unfold FrameSet.getItem at hf
    obtain ⟨i, _, hi⟩ := Option.bind_eq_some_iff.mp hf
    exact hs.frames f (List.mem_of_getElem? hi)

/-- C84, frames: in the mirrored run every frame the user can read has the same dates and number of ticks and mirrored
values: its high is the mirrored low, its low the mirrored high. -/
theorem C84_frames_partial (e : ℕ) (ep : Epic) (hep : (w.runCmds env l).epics[e]? = some ep) (ref : String) (n : ℤ)
    (f : Frame) (hf : ep.getFrame ref n = .ok (some f)) :
    ∃ ep' f', (w.runCmds env' (l.map (Spec.mirrored c).cmd)).epics[e]? = some ep' ∧
      ep'.getFrame ref n = .ok (some f') ∧ f'.periodStart = f.periodStart ∧ f'.periodEnd = f.periodEnd ∧
      f'.nbTicks = f.nbTicks ∧ f'.first.value = c - f.first.value ∧ f'.last.value = c - f.last.value ∧
      f'.high.value = c - f.low.value ∧ f'.low.value = c - f.high.value := by
  have hA := allowed_program (mirrored_lawful hc hE) mirrored_starts henv l w (init_flippable w hw) hl
  have hF := getFrame_flip (hA ep (List.mem_of_getElem? hep)).1 hf
  rw [C84_mirror_partial hc hE henv w hw l hl]
  refine ⟨Spec.flipEpic c ep, Spec.flipFrame c f, by rw [map_epic?, hep]; rfl, ?_, rfl, rfl, rfl,
    flip_value hc hE hF.first, flip_value hc hE hF.last, flip_value hc hE hF.low, flip_value hc hE hF.high⟩
  rw [flip_getFrame, hf]
  rfl

end

/-! ## C84, indicators -/

section
variable {c : ℚ} (hc : Spec.EvenCents c) (hE : Exact)

theorem flip_previous (heap : List Frame) (v : IndVal) :
    (Spec.flipVal c v).previous (heap.map (Spec.flipFrame c)) = (v.previous heap).map (Spec.flipVal c) := by
  unfold IndVal.previous IndVal.parent
  have hl : (heap.map (Spec.flipFrame c)).length = heap.length := List.length_map _
  have hr : (Spec.flipVal c v).ind.ref = v.ind.ref := rfl
  have hf : (Spec.flipVal c v).frame = v.frame := rfl
  rw [hl, hr, hf, List.getElem?_map]
  have hp : ((heap[v.frame]?).map (Spec.flipFrame c)).bind Frame.prev = (heap[v.frame]?).bind Frame.prev := by
    rcases heap[v.frame]? with _ | f <;> rfl
  rw [hp, flip_prevValue]

theorem prevValue_flip {heap : List Frame} (hh : ∀ f ∈ heap, FlipFrame f) (ref : String) (n : ℕ) : ∀ (i : Option ℕ) (v : IndVal),
    prevValue heap ref n i = some v → FlipVal v := by
  induction n with
  | zero => intro i v h; cases h
  | succ n ih =>
    intro i v h
    rcases i with _ | i
    · cases h
    · unfold prevValue at h
      rcases hg : heap[i]? with _ | f
      · rw [hg] at h; cases h
      · rw [hg] at h
        simp only at h
        rcases hv : f.get ref with _ | u
        · rw [hv] at h
          exact ih _ _ h
        · rw [hv] at h
          obtain rfl := Option.some.inj h
          exact (hh f (List.mem_of_getElem? hg)).inds _ _ hv

theorem previous_flip {heap : List Frame} (hh : ∀ f ∈ heap, FlipFrame f) {v p : IndVal} (h : v.previous heap = some p) :
    FlipVal p := prevValue_flip hh _ _ _ _ h

omit [Arith] in
theorem max_flip (c a b : ℚ) : max (c - a) (c - b) = c - min a b := by
  rcases le_total a b with h | h
  · rw [min_eq_left h, max_eq_left (by linarith)]
  · rw [min_eq_right h, max_eq_right (by linarith)]

omit [Arith] in
theorem min_flip (c a b : ℚ) : min (c - a) (c - b) = c - max a b := by
  rcases le_total a b with h | h
  · rw [max_eq_right h, min_eq_right (by linarith)]
  · rw [max_eq_left h, min_eq_left (by linarith)]

theorem sum_map_flip (l : List ℚ) : (l.map (c - ·)).sum = l.length * c - l.sum := by
  induction l with
  | nil => simp
  | cons x l ih => simp only [List.map_cons, List.sum_cons, List.length_cons]; rw [ih]; push_cast; ring

include hc hE in
theorem flip_sma {heap : List Frame} (hh : ∀ f ∈ heap, FlipFrame f) (v : IndVal) (n : ℤ) (hn : 1 ≤ n) :
    smaGet (heap.map (Spec.flipFrame c)) (Spec.flipVal c v) n = (smaGet heap v n).map (·.map (c - ·)) := by
  unfold smaGet IndVal.parent
  have hf : (Spec.flipVal c v).frame = v.frame := rfl
  rw [hf, List.getElem?_map]
  rcases hg : heap[v.frame]? with _ | f
  · rfl
  · simp only [Option.map_some]
    rw [flip_extendedCloses hc hE v (hh f (List.mem_of_getElem? hg)), List.length_map]
    split_ifs with hlt
    · rfl
    · rw [sliceFrom_map]
      have hlen : ((sliceFrom (extendedCloses v f) (n * -1)).length : ℚ) = n := by
        have : ((sliceFrom (extendedCloses v f) (n * -1)).length : ℤ) = n := by
          unfold sliceFrom
          rw [if_neg (by omega), List.length_drop]
          omega
        exact_mod_cast this
      have hn0 : (n : ℚ) ≠ 0 := by
        have : n ≠ 0 := by omega
        exact_mod_cast this
      unfold pyDiv
      rw [if_neg hn0, if_neg hn0, fsum_exact hE, fsum_exact hE, sum_map_flip, hlen]
      simp only [Except.map, bind, Except.bind, Option.map_some]
      rw [fdiv_exact hE, fdiv_exact hE, sub_div, mul_div_cancel_left₀ c hn0, rnd_exact hE, rnd_exact hE, cent_flip hc]

include hc hE in
theorem flip_pivot {heap : List Frame} (hh : ∀ f ∈ heap, FlipFrame f) {v : IndVal} (hv : FlipVal v) :
    pivotOf (heap.map (Spec.flipFrame c)) (Spec.flipVal c v) = (pivotOf heap v).map (c - ·) := by
  have hk : (Spec.flipVal c v).ind.kind = v.ind.kind := rfl
  have h1 : pivotClassic (heap.map (Spec.flipFrame c)) (Spec.flipVal c v) = (pivotClassic heap v).map (c - ·) := by
    unfold pivotClassic
    rw [flip_previous]
    rcases hp : v.previous heap with _ | p
    · rfl
    · have hF := previous_flip hh hp
      have a1 : (Spec.flipVal c p).high.value = c - p.low.value := flip_value hc hE hF.low
      have a2 : (Spec.flipVal c p).low.value = c - p.high.value := flip_value hc hE hF.high
      have a3 : (Spec.flipVal c p).last.value = c - p.last.value := flip_value hc hE hF.last
      simp only [Option.map_some, a1, a2, a3, rnd_exact hE, fadd_exact hE, fdiv_exact hE]
      rw [← cent_flip hc]
      congr 2
      ring
  have h2 : pivotOLHC (heap.map (Spec.flipFrame c)) (Spec.flipVal c v) = (pivotOLHC heap v).map (c - ·) := by
    unfold pivotOLHC
    rw [flip_previous]
    rcases hp : v.previous heap with _ | p
    · rfl
    · have hF := previous_flip hh hp
      have a1 : (Spec.flipVal c p).high.value = c - p.low.value := flip_value hc hE hF.low
      have a2 : (Spec.flipVal c p).low.value = c - p.high.value := flip_value hc hE hF.high
      have a3 : (Spec.flipVal c p).last.value = c - p.last.value := flip_value hc hE hF.last
      have a4 : (Spec.flipVal c v).first.value = c - v.first.value := flip_value hc hE hv.first
      simp only [Option.map_some, a1, a2, a3, a4, rnd_exact hE, fadd_exact hE, fdiv_exact hE]
      rw [← cent_flip hc]
      congr 2
      ring
  unfold pivotOf
  rw [hk]
  rcases v.ind.kind <;> first | exact h1 | exact h2

include hc hE in
theorem flip_level {heap : List Frame} (hh : ∀ f ∈ heap, FlipFrame f) {v : IndVal} (hv : FlipVal v) (g g' : ℚ → IndVal → ℚ)
    (hg : ∀ p q, FlipVal q → g' (c - p) (Spec.flipVal c q) = c - g p q)
    (hz : ∀ p, pivotOf heap v = some p → p ≠ 0 ∧ p ≠ c) :
    pivotLevel (heap.map (Spec.flipFrame c)) (Spec.flipVal c v) g' = (pivotLevel heap v g).map (c - ·) := by
  unfold pivotLevel
  rw [flip_pivot hc hE hh hv]
  rcases hp : pivotOf heap v with _ | p
  · rfl
  · obtain ⟨h0, h1⟩ := hz p hp
    have h2 : c - p ≠ 0 := sub_ne_zero.mpr (Ne.symm h1)
    simp only [Option.map_some]
    rw [if_neg h0, if_neg h2, flip_previous]
    rcases hq : v.previous heap with _ | q
    · rfl
    · simp only [Option.map_some]
      rw [hg p q (previous_flip hh hq)]

include hc hE in
theorem flip_levels {heap : List Frame} (hh : ∀ f ∈ heap, FlipFrame f) {v : IndVal} (hv : FlipVal v)
    (hz : ∀ p, pivotOf heap v = some p → p ≠ 0 ∧ p ≠ c) :
    let heap' := heap.map (Spec.flipFrame c)
    let v' := Spec.flipVal c v
    support1 heap' v' = (resistance1 heap v).map (c - ·) ∧ support2 heap' v' = (resistance2 heap v).map (c - ·) ∧
    support3 heap' v' = (resistance3 heap v).map (c - ·) ∧ resistance1 heap' v' = (support1 heap v).map (c - ·) ∧
    resistance2 heap' v' = (support2 heap v).map (c - ·) ∧ resistance3 heap' v' = (support3 heap v).map (c - ·) := by
  have a1 : ∀ q, FlipVal q → (Spec.flipVal c q).high.value = c - q.low.value := fun q hF => flip_value hc hE hF.low
  have a2 : ∀ q, FlipVal q → (Spec.flipVal c q).low.value = c - q.high.value := fun q hF => flip_value hc hE hF.high
  refine ⟨flip_level hc hE hh hv _ _ ?_ hz, flip_level hc hE hh hv _ _ ?_ hz, flip_level hc hE hh hv _ _ ?_ hz,
    flip_level hc hE hh hv _ _ ?_ hz, flip_level hc hE hh hv _ _ ?_ hz, flip_level hc hE hh hv _ _ ?_ hz⟩ <;>
  · intro p q hq
    simp only [a1 q hq, a2 q hq, rnd_exact hE, fadd_exact hE, fsub_exact hE, fmul_exact hE]
    rw [← cent_flip hc]
    congr 1
    ring

include hc hE in
theorem flip_heikin {heap : List Frame} (hh : ∀ f ∈ heap, FlipFrame f) {v : IndVal} (hv : FlipVal v) :
    haOpen (heap.map (Spec.flipFrame c)) (Spec.flipVal c v) = (haOpen heap v).map (c - ·) ∧
    haHigh (heap.map (Spec.flipFrame c)) (Spec.flipVal c v) = (haLow heap v).map (c - ·) ∧
    haLow (heap.map (Spec.flipFrame c)) (Spec.flipVal c v) = (haHigh heap v).map (c - ·) ∧
    haLast (Spec.flipVal c v) = c - haLast v := by
  have hr : ∀ x : ℚ, rnd (c - x) = c - rnd x := fun x => by rw [rnd_exact hE, rnd_exact hE, cent_flip hc]
  have a0 : ∀ q, FlipVal q → (Spec.flipVal c q).first.value = c - q.first.value := fun q hF => flip_value hc hE hF.first
  have a1 : ∀ q, FlipVal q → (Spec.flipVal c q).high.value = c - q.low.value := fun q hF => flip_value hc hE hF.low
  have a2 : ∀ q, FlipVal q → (Spec.flipVal c q).low.value = c - q.high.value := fun q hF => flip_value hc hE hF.high
  have a3 : ∀ q, FlipVal q → (Spec.flipVal c q).last.value = c - q.last.value := fun q hF => flip_value hc hE hF.last
  have hlast : ∀ q : IndVal, FlipVal q → haLast (Spec.flipVal c q) = c - haLast q := by
    intro q hq
    unfold haLast
    rw [a0 q hq, a1 q hq, a2 q hq, a3 q hq, ← hr]
    congr 1
    simp only [fadd_exact hE, fdiv_exact hE]
    ring
  have hopen : ∀ (n : ℕ) (v : IndVal), FlipVal v → haOpenFuel (heap.map (Spec.flipFrame c)) n (Spec.flipVal c v) =
      (haOpenFuel heap n v).map (c - ·) := by
    intro n
    induction n with
    | zero => intro v _; rfl
    | succ n ih =>
      intro v hv
      unfold haOpenFuel
      rw [flip_previous]
      rcases hp : v.previous heap with _ | p
      · simp only [Option.map_none, Except.map]
        rw [← hr, a0 v hv]
      · have hF := previous_flip hh hp
        simp only [Option.map_some]
        have hk : (Spec.flipVal c p).ind.kind = p.ind.kind := rfl
        rw [hk]
        rcases p.ind.kind <;> try rfl
        · simp only [Except.map]
          have h1 : jOpen (Spec.flipVal c p) = c - jOpen p := by unfold jOpen; rw [a0 p hF, hr]
          have h2 : jLast (Spec.flipVal c p) = c - jLast p := by unfold jLast; rw [a3 p hF, hr]
          rw [h1, h2, ← hr]
          congr 2
          simp only [fadd_exact hE, fdiv_exact hE]
          ring
        · simp only
          rw [ih p hF, hlast p hF]
          rcases haOpenFuel heap n p with e | o
          · rfl
          · simp only [Except.map, bind, Except.bind]
            rw [← hr]
            congr 2
            simp only [fadd_exact hE, fdiv_exact hE]
            ring
  have hl : (heap.map (Spec.flipFrame c)).length = heap.length := List.length_map _
  have ho : haOpen (heap.map (Spec.flipFrame c)) (Spec.flipVal c v) = (haOpen heap v).map (c - ·) := by
    unfold haOpen
    rw [hl]
    exact hopen _ v hv
  refine ⟨ho, ?_, ?_, hlast v hv⟩
  · unfold haHigh haLow
    rw [ho, hlast v hv, a1 v hv]
    rcases haOpen heap v with e | o
    · rfl
    · simp only [Except.map, bind, Except.bind]
      rw [max_flip, max_flip, hr]
  · unfold haHigh haLow
    rw [ho, hlast v hv, a2 v hv]
    rcases haOpen heap v with e | o
    · rfl
    · simp only [Except.map, bind, Except.bind]
      rw [min_flip, min_flip, hr]

/-- C84, indicators: the value of an indicator in the mirrored run has mirrored averages and pivots, mirrored candles (highs
become lows), and when the pivot is not 0 in either run, supports become resistances. -/
theorem C84_indicators_partial {env env' : Env} (henv : (Spec.mirrored c).RelEnv (flippable c) env env') (w : World)
    (hw : w.Init) (l : List Cmd) (hl : Spec.Flippable c env w l)
    (e : ℕ) (ep : Epic) (hep : (w.runCmds env l).epics[e]? = some ep) (ref : String) (fs : FrameSet)
    (hfs : ep.frameSets.get? ref = some fs) (i : ℕ) (f : Frame) (hf : fs.heap[i]? = some f) (iref : String) (v : IndVal)
    (hv : f.get iref = some v) (hc : Spec.EvenCents c) (hE : Exact) :
    ∃ ep' fs' f' v', (w.runCmds env' (l.map (Spec.mirrored c).cmd)).epics[e]? = some ep' ∧
      ep'.frameSets.get? ref = some fs' ∧ fs'.heap[i]? = some f' ∧ f'.get iref = some v' ∧
      (∀ n : ℤ, 1 ≤ n → smaGet fs'.heap v' n = (smaGet fs.heap v n).map (·.map (c - ·))) ∧
      jOhlc v' = ⟨c - jOpen v, c - jLow v, c - jHigh v, c - jLast v⟩ ∧
      haOhlc fs'.heap v' = (haOhlc fs.heap v).map (fun o => ⟨c - o.op, c - o.lo, c - o.hi, c - o.la⟩) ∧
      pivotOf fs'.heap v' = (pivotOf fs.heap v).map (c - ·) ∧
      ((∀ p, pivotOf fs.heap v = some p → p ≠ 0 ∧ p ≠ c) →
        support1 fs'.heap v' = (resistance1 fs.heap v).map (c - ·) ∧
        support2 fs'.heap v' = (resistance2 fs.heap v).map (c - ·) ∧
        support3 fs'.heap v' = (resistance3 fs.heap v).map (c - ·) ∧
        resistance1 fs'.heap v' = (support1 fs.heap v).map (c - ·) ∧
        resistance2 fs'.heap v' = (support2 fs.heap v).map (c - ·) ∧
        resistance3 fs'.heap v' = (support3 fs.heap v).map (c - ·)) := by
  have hA := allowed_program (mirrored_lawful hc hE) mirrored_starts henv l w (init_flippable w hw) hl
  have hS : FlipSet fs := (hA ep (List.mem_of_getElem? hep)).1 (ref, fs) (Dict.mem_of_get? hfs)
  have hF := hS.frames f (List.mem_of_getElem? hf)
  have hV := hF.inds iref v hv
  have hr : ∀ x : ℚ, rnd (c - x) = c - rnd x := fun x => by rw [rnd_exact hE, rnd_exact hE, cent_flip hc]
  obtain ⟨o1, o2, o3, o4⟩ := flip_heikin hc hE hS.frames hV
  rw [C84_mirror_partial hc hE henv w hw l hl]
  refine ⟨Spec.flipEpic c ep, Spec.flipFrameSet c fs, Spec.flipFrame c f, Spec.flipVal c v, by rw [map_epic?, hep]; rfl,
    ?_, ?_, ?_, flip_sma hc hE hS.frames v, ?_, ?_, flip_pivot hc hE hS.frames hV, flip_levels hc hE hS.frames hV⟩
  · have hg : (Spec.flipEpic c ep).frameSets.get? ref = (ep.frameSets.get? ref).map (Spec.flipFrameSet c) :=
      Dict.get?_map _ _ _
    rw [hg, hfs]
    rfl
  · unfold Spec.flipFrameSet
    simp only
    rw [List.getElem?_map, hf]
    rfl
  · rw [flip_get, hv]
    rfl
  · have b0 : (Spec.flipVal c v).first.value = c - v.first.value := flip_value hc hE hV.first
    have b1 : (Spec.flipVal c v).high.value = c - v.low.value := flip_value hc hE hV.low
    have b2 : (Spec.flipVal c v).low.value = c - v.high.value := flip_value hc hE hV.high
    have b3 : (Spec.flipVal c v).last.value = c - v.last.value := flip_value hc hE hV.last
    unfold jOhlc jOpen jHigh jLow jLast
    rw [b0, b1, b2, b3, hr, hr, hr, hr]
  · have hh : (Spec.flipFrameSet c fs).heap = fs.heap.map (Spec.flipFrame c) := rfl
    have hL : haHigh fs.heap v = (haOpen fs.heap v).map
        (fun o => rnd (max (max o v.high.value) (haLast v))) := by
      unfold haHigh; rcases haOpen fs.heap v <;> rfl
    have hH : haLow fs.heap v = (haOpen fs.heap v).map
        (fun o => rnd (min (min o v.low.value) (haLast v))) := by
      unfold haLow; rcases haOpen fs.heap v <;> rfl
    unfold haOhlc
    rw [hh, o1, o2, o3, o4, hL, hH]
    rcases haOpen fs.heap v <;> rfl

/-- C84, candles: mirrored, a green candle is a red one, heights and bodies are the same, head and tail are exchanged (when no
end of the body is 0 in either run). -/
theorem C84_candles_partial (hE : Exact) (o : Ohlc) (h1 : o.op ≠ 0) (h2 : o.la ≠ 0) (h3 : o.op ≠ c) (h4 : o.la ≠ c) :
    let o' : Ohlc := ⟨c - o.op, c - o.lo, c - o.hi, c - o.la⟩
    (o'.color = some .green ↔ o.color = some .red) ∧ (o'.color = some .red ↔ o.color = some .green) ∧
    (o'.color = some .black ↔ o.color = some .black) ∧
    o'.height = o.height ∧ o'.body = o.body ∧ o'.head = o.tail ∧ o'.tail = o.head := by
  have hz : ¬ (o.op = 0 ∨ o.la = 0) := by tauto
  have hz' : ¬ (c - o.op = 0 ∨ c - o.la = 0) := by
    rw [sub_eq_zero, sub_eq_zero]
    exact fun h => h.elim (fun h => h3 h.symm) (fun h => h4 h.symm)
  simp only [Ohlc.color, Ohlc.height, Ohlc.body, Ohlc.head, Ohlc.tail, if_neg hz, if_neg hz', fsub_exact hE,
    sub_lt_sub_iff_left, sub_sub_sub_cancel_left, max_flip, min_flip, abs_sub_comm o.la o.op]
  refine ⟨?_, ?_, ?_, ?_⟩
  · rcases lt_trichotomy o.op o.la with h | h | h
    · simp [h, not_lt_of_gt h]
    · simp [h]
    · simp [h, not_lt_of_gt h]
  · rcases lt_trichotomy o.op o.la with h | h | h
    · simp [h, not_lt_of_gt h]
    · simp [h]
    · simp [h, not_lt_of_gt h]
  · rcases lt_trichotomy o.op o.la with h | h | h
    · simp [h, not_lt_of_gt h]
    · simp [h]
    · simp [h, not_lt_of_gt h]
  · simp

omit [Arith] in
theorem even_hundred : Spec.EvenCents 100 := ⟨5000, by norm_num⟩

theorem flip_buildSums (hE : Exact) (l : List ℚ) : buildSums l =
    ((l.filter (0 ≤ ·)).sum, (l.filter (· < 0)).sum) := by
  have h : ∀ (l : List ℚ) (a b : ℚ), l.foldl (fun s v => if 0 ≤ v then (fadd s.1 v, s.2) else (s.1, fadd s.2 v)) (a, b) =
      (a + (l.filter (0 ≤ ·)).sum, b + (l.filter (· < 0)).sum) := by
    intro l
    induction l with
    | nil => intro a b; simp
    | cons x l ih =>
      intro a b
      simp only [List.foldl_cons]
      split_ifs with hx
      · rw [ih, fadd_exact hE]
        simp [hx, not_lt.mpr hx, add_assoc]
      · have hx' := not_le.mp hx
        rw [ih, fadd_exact hE]
        simp [hx, hx', add_assoc]
  unfold buildSums
  rw [h]
  simp

omit [Arith] in
theorem sum_neg_filter (l : List ℚ) :
    ((l.map (- ·)).filter (0 ≤ ·)).sum = -(l.filter (· < 0)).sum ∧
    ((l.map (- ·)).filter (· < 0)).sum = -(l.filter (0 ≤ ·)).sum := by
  induction l with
  | nil => simp
  | cons x l ih =>
    obtain ⟨h1, h2⟩ := ih
    simp only [List.map_cons]
    rcases lt_trichotomy x 0 with h | h | h
    · have a1 : (0 : ℚ) ≤ -x := by linarith
      have a2 : ¬ -x < 0 := by linarith
      have a3 : ¬ (0 : ℚ) ≤ x := by linarith
      simp only [List.filter_cons, decide_eq_true a1, decide_eq_false a2, decide_eq_true h, decide_eq_false a3, if_true,
        Bool.false_eq_true, if_false, List.sum_cons, h1, h2]
      constructor
      · ring
      · trivial
    · subst h
      rw [List.filter_cons_of_pos (by simp), List.filter_cons_of_neg (by simp),
        List.filter_cons_of_neg (by simp), List.filter_cons_of_pos (by simp), List.sum_cons,
        List.sum_cons, h1, h2]
      constructor <;> ring
    · have a1 : ¬ (0 : ℚ) ≤ -x := by linarith
      have a2 : -x < 0 := by linarith
      have a3 : (0 : ℚ) ≤ x := by linarith
      have a4 : ¬ x < 0 := by linarith
      simp only [List.filter_cons, decide_eq_false a1, decide_eq_true a2, decide_eq_false a4, decide_eq_true a3, if_true,
        Bool.false_eq_true, if_false, List.sum_cons, h1, h2]
      constructor
      · trivial
      · ring

omit [Arith] in
theorem sums_sign (l : List ℚ) : 0 ≤ (l.filter (0 ≤ ·)).sum ∧ (l.filter (· < 0)).sum ≤ 0 ∧
    ((l.filter (0 ≤ ·)).sum = 0 → (l.filter (· < 0)).sum = 0 → ∀ x ∈ l, x = 0) := by
  induction l with
  | nil => simp
  | cons x l ih =>
    obtain ⟨h1, h2, h3⟩ := ih
    by_cases h : 0 ≤ x
    · have h' : ¬ x < 0 := not_lt.mpr h
      rw [List.filter_cons_of_pos (by simpa using h), List.filter_cons_of_neg (by simpa using h'), List.sum_cons]
      refine ⟨by linarith, h2, fun e1 e2 y hy => ?_⟩
      rcases List.mem_cons.mp hy with rfl | hy
      · linarith
      · exact h3 (by linarith) e2 y hy
    · have h' : x < 0 := not_le.mp h
      rw [List.filter_cons_of_neg (by simpa using h), List.filter_cons_of_pos (by simpa using h'), List.sum_cons]
      exact ⟨h1, by linarith, fun e1 e2 => absurd e2 (by linarith)⟩

/-- C84, RSI: with the opposite changes it is 100 minus the RSI, unless all changes are 0. -/
theorem C84_rsi_partial (hE : Exact) (n : ℤ) (hn : 1 ≤ n) (l : List ℚ) (hl : ∃ x ∈ l, x ≠ 0) :
    buildRsi n (l.map (- ·)) = (buildRsi n l).map (100 - ·) := by
  have hb := flip_buildSums hE l
  have hb' := flip_buildSums hE (l.map (- ·))
  rw [(sum_neg_filter l).1, (sum_neg_filter l).2] at hb'
  obtain ⟨hP, hN, h0⟩ := sums_sign l
  obtain ⟨x, hx, hx0⟩ := hl
  generalize (l.filter (0 ≤ ·)).sum = P at *
  generalize (l.filter (· < 0)).sum = N at *
  unfold buildRsi
  rw [hb, hb']
  simp only
  by_cases hN0 : N = 0
  · have hP0 : -P ≠ 0 := fun h => hx0 (h0 (by linarith) hN0 x hx)
    rw [if_pos hN0, if_neg hP0, if_pos (by rw [hN0, neg_zero])]
    simp [Except.map]
  · by_cases hP0 : P = 0
    · rw [if_neg hN0, if_pos hP0, if_pos (by rw [hP0, neg_zero])]
      simp [Except.map]
    · have hP1 : 0 < P := lt_of_le_of_ne hP (Ne.symm hP0)
      have hN1 : N < 0 := lt_of_le_of_ne hN hN0
      have hn1 : (0 : ℚ) < n := by exact_mod_cast hn
      have hn0 : (n : ℚ) ≠ 0 := ne_of_gt hn1
      rw [if_neg hN0, if_neg hP0, if_neg (neg_ne_zero.mpr hP0), if_neg (neg_ne_zero.mpr hN0)]
      have a1 : |N / (n : ℚ)| = -N / n := by
        rw [abs_of_neg (div_neg_of_neg_of_pos hN1 hn1), neg_div]
      have a2 : |-P / (n : ℚ)| = P / n := by
        rw [neg_div, abs_neg, abs_of_pos (div_pos hP1 hn1)]
      have b1 : -N / (n : ℚ) ≠ 0 := div_ne_zero (neg_ne_zero.mpr hN0) hn0
      have b2 : P / (n : ℚ) ≠ 0 := div_ne_zero hP0 hn0
      have e1 : P / (n : ℚ) / (-N / n) = P / -N := div_div_div_cancel_right₀ hn0 _ _
      have e2 : -N / (n : ℚ) / (P / n) = -N / P := div_div_div_cancel_right₀ hn0 _ _
      have c1 : (1 : ℚ) + P / -N ≠ 0 := by
        have : 0 < P / -N := div_pos hP1 (by linarith)
        linarith
      have c2 : (1 : ℚ) + -N / P ≠ 0 := by
        have : 0 < -N / P := div_pos (by linarith) hP1
        linarith
      simp only [pyDiv, if_neg hn0, fdiv_exact hE, fadd_exact hE, fsub_exact hE, bind, Except.bind, a1, a2, if_neg b1,
        if_neg b2, e1, e2, if_neg c1, if_neg c2, Except.map, rnd_exact hE]
      rw [← cent_flip even_hundred]
      congr 2
      have hPN : P - N ≠ 0 := by linarith
      have d1 : (1 : ℚ) + P / -N = (P - N) / -N := by
        field_simp
        ring
      have d2 : (1 : ℚ) + -N / P = (P - N) / P := by
        field_simp
        ring
      rw [d1, d2]
      field_simp
      ring

/-- Spec: a strategy that buys when the last tick of its epic is above the first tick of the current frame of frame set
`ref` and sells when it is below, at each tick of an open market, and closes everything at the end of the day. -/
def Spec.bothWays (q : ℤ) (ref : String) : Env := fun s cb e w =>
  match cb with
  | .everyTickOpen =>
    match w.epics[e]? with
    | none => .done
    | some ep => match ep.getFrame ref 0 with
      | .ok (some f) =>
        if f.first.value < ep.lastTick.value then .act (.openTrade e (some s) (some .buy) q) fun _ _ => .done
        else if ep.lastTick.value < f.first.value then .act (.openTrade e (some s) (some .sell) q) fun _ _ => .done
        else .done
      | _ => .done
  | .marketClose => .act (.closeOpened s none) fun _ _ => .done
  | _ => .done

include hc hE in
/-- C84: callbacks that trade on differences of prices, treating rising and falling alike, take the mirrored decisions in the
mirrored market, so the theorems cover them. -/
theorem C84_trend_partial (q : ℤ) (ref : String) :
    (Spec.mirrored c).RelEnv (flippable c) (Spec.bothWays q ref) (Spec.bothWays q ref) := by
  intro s cb e w hw
  unfold Spec.bothWays
  rcases cb
  · exact .act (.closeOpened s none) _ _ (fun _ _ _ => .done)
  · exact .done
  · simp only
    rw [map_epic?]
    rcases hep : w.epics[e]? with _ | ep
    · exact .done
    · simp only [Option.map_some]
      obtain ⟨hA, hL⟩ := hw ep (List.mem_of_getElem? hep)
      have hg : ((Spec.mirrored c).epic ep).getFrame ref 0 = _ := flip_getFrame ep ref 0
      rw [hg]
      rcases hf : ep.getFrame ref 0 with err | _ | f
      · exact .done
      · exact .done
      · simp only [Except.map, Option.map_some]
        have h1 : (Spec.flipFrame c f).first.value = c - f.first.value := flip_value hc hE (getFrame_flip hA hf).first
        have h2 : ((Spec.mirrored c).epic ep).lastTick.value = c - ep.lastTick.value := flip_value hc hE hL.2
        rw [h1, h2]
        simp only [sub_lt_sub_iff_left]
        rcases lt_trichotomy f.first.value ep.lastTick.value with h | h | h
        · rw [if_pos h, if_neg (not_lt_of_gt h), if_pos h]
          exact .act (.openTrade e (some s) (some .buy) q) _ _ (fun _ _ _ => .done)
        · rw [h, if_neg (lt_irrefl _), if_neg (lt_irrefl _)]
          exact .done
        · rw [if_neg (not_lt_of_gt h), if_pos h, if_pos h]
          exact .act (.openTrade e (some s) (some .sell) q) _ _ (fun _ _ _ => .done)
  · exact .done

end

end

/-! ## Concrete cases -/

/-- The end of a day: both epics get a tick, the market moves, then closes. -/
private def day : List Cmd :=
  [.tick 1 (Demo.tk 955 5 6), .tick 0 (Demo.tk 955 10 12), .addFrameSet 0 "UT1" Demo.minutes, .addStrategy 0 0,
   .tick 0 (Demo.tk 956 10 12), .tick 0 (Demo.tk 956 12 14), .tick 0 (Demo.tk 958 9 11), .tick 0 (Demo.tk 958 8 10),
   .tick 0 (Demo.tk 959 (25 / 2) 13), .tick 0 (Demo.tk 961 10 12)]

private theorem day_flippable : letI := Arith.exact
    Spec.Flippable 100 (Spec.bothWays 3 "UT1") Demo.world day := by
  letI := Arith.exact
  have ht : ∀ (m : ℤ) (a b : ℚ) (k : ℤ), 0 < a → 0 < b → a < 100 → b < 100 → b - a = k / 100 →
      (flippable 100).tick (Demo.tk m a b) :=
    fun m a b k h1 h2 h3 h4 h => ⟨⟨ne_of_gt h1, ne_of_lt h3, ne_of_gt h2, ne_of_lt h4⟩, k, h⟩
  have h1 : Spec.EarlyCmd (flippable 100) (fun _ x => x.bid ≠ 0) Demo.world (.tick 1 (Demo.tk 955 5 6)) := by
    refine ⟨ht 955 5 6 100 (by norm_num) (by norm_num) (by norm_num) (by norm_num) (by norm_num), fun ep hep => ?_⟩
    obtain rfl : Epic.new "E1" Zone.utc 0 (23 * hourUs) [] [] 0 = ep := Option.some.inj hep
    exact ⟨by decide +kernel, Or.inl rfl⟩
  have h2 : Spec.EarlyCmd (flippable 100) (fun _ x => x.bid ≠ 0)
      (Demo.world.exec (Spec.bothWays 3 "UT1") (.tick 1 (Demo.tk 955 5 6))).1 (.tick 0 (Demo.tk 955 10 12)) := by
    refine ⟨ht 955 10 12 200 (by norm_num) (by norm_num) (by norm_num) (by norm_num) (by norm_num), fun ep hep => ?_⟩
    have he : (Demo.world.exec (Spec.bothWays 3 "UT1") (.tick 1 (Demo.tk 955 5 6))).1.epics[0]? =
        some (Epic.new "E0" Zone.utc (8 * hourUs) (16 * hourUs) [] [] 0) := by with_unfolding_all rfl
    obtain rfl : Epic.new "E0" Zone.utc (8 * hourUs) (16 * hourUs) [] [] 0 = ep := Option.some.inj (he.symm.trans hep)
    exact ⟨by decide +kernel, Or.inl rfl⟩
  refine Or.inr ⟨h1, Or.inr ⟨h2, Or.inl ⟨?_, ?_⟩⟩⟩
  · unfold Spec.AllSeen
    decide +kernel
  · intro y hy
    simp only [List.mem_cons, List.not_mem_nil, or_false] at hy
    rcases hy with rfl | rfl | rfl | rfl | rfl | rfl | rfl | rfl
    · exact ⟨fun f hf => (List.not_mem_nil hf).elim, fun p hp => (List.not_mem_nil hp).elim⟩
    · trivial
    · exact ht _ _ _ 200 (by norm_num) (by norm_num) (by norm_num) (by norm_num) (by norm_num)
    · exact ht _ _ _ 200 (by norm_num) (by norm_num) (by norm_num) (by norm_num) (by norm_num)
    · exact ht _ _ _ 200 (by norm_num) (by norm_num) (by norm_num) (by norm_num) (by norm_num)
    · exact ht _ _ _ 200 (by norm_num) (by norm_num) (by norm_num) (by norm_num) (by norm_num)
    · exact ht _ _ _ 50 (by norm_num) (by norm_num) (by norm_num) (by norm_num) (by norm_num)
    · exact ht _ _ _ 200 (by norm_num) (by norm_num) (by norm_num) (by norm_num) (by norm_num)

/-- C84: that day meets the hypotheses: the same results in the market mirrored at 50. -/
example : letI := Arith.exact
    strategyResult (Spec.tradesOf (Demo.world.runCmds (Spec.bothWays 3 "UT1") (day.map (Spec.mirrored 100).cmd)) 0) .none =
    strategyResult (Spec.tradesOf (Demo.world.runCmds (Spec.bothWays 3 "UT1") day) 0) .none := by
  letI := Arith.exact
  exact (C84_strategies_partial even_hundred exact_exact (C84_trend_partial even_hundred exact_exact 3 "UT1") Demo.world
    Demo.world_init day day_flippable 0).1

/-- C84: the trades of that day and of the mirrored day. -/
example : letI := Arith.exact
    let env := Spec.bothWays 3 "UT1"
    let own := Spec.tradesOf (Demo.world.runCmds env day) 0
    let own' := Spec.tradesOf (Demo.world.runCmds env (day.map (Spec.mirrored 100).cmd)) 0
    own.map (fun t => (t.dir, t.result)) = [(.buy, -18)] ∧ own'.map (fun t => (t.dir, t.result)) = [(.sell, -18)] ∧
    own'.map Trade.openValue = own.map (fun t => 100 - t.openValue) := by
  letI := Arith.exact
  decide +kernel

/-- C84: the opposite changes, the opposite RSI. -/
example : letI := Arith.exact
    buildRsi 3 [1, -2, 5] = .ok 75 ∧ buildRsi 3 ([1, -2, 5].map (- ·)) = .ok 25 := by
  letI := Arith.exact
  decide +kernel

/-- A first tick for both epics, then two ticks with the strategy listening. -/
private def short (a b : Tick) : List Cmd :=
  [.tick 1 (Demo.tk 955 5 6), .tick 0 a, .addFrameSet 0 "UT1" Demo.minutes, .addStrategy 0 0, .tick 0 a, .tick 0 b]

/-- C84 is false for an odd number of cents: values of ticks are rounded to even cents. -/
theorem C84_false : letI := Arith.exact
    let l := short (Demo.tk 956 10 10) (Demo.tk 956 10 (1001 / 100))
    let own := Spec.tradesOf (Demo.world.runCmds (Spec.bothWays 3 "UT1") l) 0
    let own' := Spec.tradesOf (Demo.world.runCmds (Spec.bothWays 3 "UT1") (l.map (Spec.mirrored (10001 / 100)).cmd)) 0
    own.map Trade.dir = [] ∧ own'.map Trade.dir = [.sell] := by
  letI := Arith.exact
  decide +kernel

/-- C84 is false for spreads that are not a whole number of cents: values are computed from the bid and the rounded spread. -/
theorem C84_spread_false : letI := Arith.exact
    let l := short (Demo.tk 956 10 10) (Demo.tk 956 (10001 / 1000) (10006 / 1000))
    let own := Spec.tradesOf (Demo.world.runCmds (Spec.bothWays 3 "UT1") l) 0
    let own' := Spec.tradesOf (Demo.world.runCmds (Spec.bothWays 3 "UT1") (l.map (Spec.mirrored 100).cmd)) 0
    own.map Trade.dir = [] ∧ own'.map Trade.dir = [.sell] := by
  letI := Arith.exact
  decide +kernel

/-- C84 is false when an exit quote is 0: the trade is then valued at its open price. -/
theorem C84_zero_false : letI := Arith.exact
    let l : List Cmd := [.tick 0 (Demo.tk 480 0 1), .op (.openTrade 0 none (some .buy) 1)]
    let w := Demo.world.runCmds Demo.quiet l
    let w' := Demo.world.runCmds Demo.quiet (l.map (Spec.mirrored 100).cmd)
    w.trades.map Trade.result = [0] ∧ w'.trades.map Trade.result = [-1] := by
  letI := Arith.exact
  decide +kernel

/-- C84 is false for the RSI of a market that did not move: it is 100 in both markets. -/
theorem C84_flat_false : letI := Arith.exact
    let l : List Cmd := [.addFrameSet 0 "UT1" Demo.minutes, .addIndicator 0 "UT1" ⟨"rsi", .rsi 1 none, false⟩,
      .tick 0 (Demo.tk 480 10 12), .tick 0 (Demo.tk 481 10 12)]
    let rsis : World → List (List (List (Option ℚ))) := fun w => w.epics.map fun ep => ep.frameSets.map fun p =>
      p.2.heap.map fun f => (f.get "rsi").bind IndVal.rsi
    rsis (Demo.world.runCmds Demo.quiet l) = [[[none, some 100]], []] ∧
    rsis (Demo.world.runCmds Demo.quiet (l.map (Spec.mirrored 100).cmd)) = [[[none, some 100]], []] := by
  letI := Arith.exact
  decide +kernel

end Estrade
