import Verif.Lemmas.Dicts
import Verif.Lemmas.Feed
import Verif.Demo
import Verif.Props.Scaling

/-!
# C81: indicators of a frame set do not influence each other
(estrade/graph/frame_set.py, estrade/graph/base_indicator.py, estrade/graph/indicators/*.py)
-/

set_option linter.style.haveILetI false
set_option linter.unusedSectionVars false
set_option autoImplicit false

namespace Estrade

/-- Spec: the entries of a dict whose key is in `K`. -/
def Spec.only {β : Type} (K : String → Bool) (d : Dict β) : Dict β := d.filter (fun p => K p.1)

/-- Spec: the frame with the values of the indicators in `K` only. -/
def Spec.onlyFrame (K : String → Bool) (f : Frame) : Frame := { f with inds := Spec.only K f.inds }

/-- Spec: the frame set with the indicators in `K` only. -/
def Spec.onlySet (K : String → Bool) (fs : FrameSet) : FrameSet :=
  { fs with heap := fs.heap.map (Spec.onlyFrame K), indicators := Spec.only K fs.indicators }

/-- Spec: calls on a frame set: `add_indicator(ind)`, `on_new_tick(tick)`. -/
inductive Spec.SetCmd
  | add (ind : Indicator)
  | feed (c : Ctx) (t : Tick)

/-- Spec: the call does not register an indicator outside `K`. -/
def Spec.SetCmd.within (K : String → Bool) : Spec.SetCmd → Bool
  | .add ind => K ind.ref
  | .feed _ _ => true

section
variable [Arith]

/-- Spec: the frame set after a call. -/
def Spec.SetCmd.exec (fs : FrameSet) : Spec.SetCmd → FrameSet
  | .add ind => (fs.addIndicator ind).1
  | .feed c t => (fs.feed c t).1

/-- Spec: the frame set after some calls. -/
def Spec.setRun (fs : FrameSet) (l : List Spec.SetCmd) : FrameSet := l.foldl Spec.SetCmd.exec fs

/-- Spec: the call is no tick that raises an exception. -/
def Spec.SetCmd.calm (fs : FrameSet) : Spec.SetCmd → Prop
  | .add _ => True
  | .feed c t => (fs.feed c t).2 = none

/-- Spec: no tick raises an exception. -/
def Spec.SetCalm : FrameSet → List Spec.SetCmd → Prop
  | _, [] => True
  | fs, x :: l => x.calm fs ∧ Spec.SetCalm (x.exec fs) l

/-! ## Dicts -/

theorem only_get? {β : Type} (K : String → Bool) (k : String) (h : K k = true) (d : Dict β) :
    (Spec.only K d).get? k = d.get? k := by
  unfold Spec.only
  induction d with
  | nil => rfl
  | cons p d ih =>
    rw [Dict.get?_cons, List.filter_cons]
    split_ifs with h1 h2 h2
    · rw [Dict.get?_cons, if_pos h2]
    · rw [Dict.get?_cons, if_neg h2]; exact ih
    · rw [h2] at h1; exact absurd h h1
    · exact ih

theorem only_set_self {β : Type} (K : String → Bool) (k : String) (h : K k = false) (d : Dict β) (v : β) :
    Spec.only K (d.set k v) = Spec.only K d := by
  unfold Dict.set
  split_ifs with hc
  · unfold Spec.only
    clear hc
    induction d with
    | nil => rfl
    | cons p d ih => by_cases h1 : p.1 = k <;> simp_all [List.filter_cons]
  · unfold Spec.only
    rw [List.filter_append]
    simp [h]

theorem only_set {β : Type} (K : String → Bool) (k : String) (h : K k = true) (d : Dict β) (v : β) :
    Spec.only K (d.set k v) = (Spec.only K d).set k v := by
  have hany : (Spec.only K d).any (fun p => p.1 == k) = d.any (fun p => p.1 == k) := by
    unfold Spec.only
    induction d with
    | nil => rfl
    | cons p d ih =>
      rw [List.filter_cons, List.any_cons]
      split_ifs with h1
      · rw [List.any_cons, ih]
      · have h3 : (p.1 == k) = false := by
          rcases hx : p.1 == k
          · rfl
          · rw [beq_iff_eq.1 hx] at h1; exact absurd h h1
        rw [h3, ih, Bool.false_or]
  unfold Dict.set
  rw [hany]
  split_ifs with hc
  · unfold Spec.only
    clear hany hc
    induction d with
    | nil => rfl
    | cons p d ih =>
      by_cases h1 : p.1 = k
      · simp_all
      · by_cases h2 : K p.1 = true <;> simp_all
  · unfold Spec.only
    rw [List.filter_append]
    simp [h]

/-! ## Values and frames -/

section
variable {K : String → Bool}

theorem only_get {k : String} (h : K k = true) (f : Frame) : (Spec.onlyFrame K f).get k = f.get k := by
  unfold Frame.get Spec.onlyFrame
  simp only
  rw [only_get? K k h]

theorem only_prevValue {ref : String} (h : K ref = true) (heap : List Frame) (n : ℕ) : ∀ i : Option ℕ,
    prevValue (heap.map (Spec.onlyFrame K)) ref n i = prevValue heap ref n i := by
  induction n with
  | zero => intro i; rfl
  | succ n ih =>
    intro i
    rcases i with _ | i
    · rfl
    · unfold prevValue
      rw [List.getElem?_map]
      rcases heap[i]? with _ | f
      · rfl
      · simp only [Option.map_some]
        rw [only_get h]
        rcases f.get ref with _ | v
        · exact ih f.prev
        · rfl

theorem only_extendedChanges (heap : List Frame) (v : IndVal) (f : Frame) :
    extendedChanges (heap.map (Spec.onlyFrame K)) v (Spec.onlyFrame K f) = extendedChanges heap v f := by
  unfold extendedChanges
  have hp : (Spec.onlyFrame K f).prev = f.prev := rfl
  rw [hp]
  rcases f.prev with _ | p
  · rfl
  · simp only
    rw [List.getElem?_map]
    rcases heap[p]? with _ | g <;> rfl

theorem only_prevCloses (heap : List Frame) (p : IndVal) :
    prevCloses (heap.map (Spec.onlyFrame K)) p = prevCloses heap p := by
  unfold prevCloses
  rw [List.getElem?_map]
  rcases p.ind.kind <;> try rfl
  rcases heap[p.frame]? with _ | g <;> rfl

theorem only_prevChanges (heap : List Frame) (p : IndVal) :
    prevChanges (heap.map (Spec.onlyFrame K)) p = prevChanges heap p := by
  unfold prevChanges
  rw [List.getElem?_map]
  rcases p.ind.kind <;> try rfl
  rcases heap[p.frame]? with _ | g
  · rfl
  · simp only [Option.map_some]
    rw [only_extendedChanges]

theorem only_updateRsi (heap : List Frame) (f : Frame) (n : ℤ) (v : IndVal) :
    updateRsi (heap.map (Spec.onlyFrame K)) (Spec.onlyFrame K f) n v = updateRsi heap f n v := by
  unfold updateRsi
  rw [only_extendedChanges]

theorem only_newVal {ind : Indicator} (h : K ind.ref = true) (heap : List Frame) (id : ℕ) (f : Frame) :
    IndVal.new (heap.map (Spec.onlyFrame K)) ind id (Spec.onlyFrame K f) = IndVal.new heap ind id f := by
  unfold IndVal.new
  have hb : IndVal.base ind id (Spec.onlyFrame K f) = IndVal.base ind id f := rfl
  have hp : (Spec.onlyFrame K f).prev = f.prev := rfl
  have hl : (heap.map (Spec.onlyFrame K)).length = heap.length := List.length_map _
  rw [hb, hp, hl, only_prevValue h]
  simp only [only_prevCloses, only_prevChanges, only_updateRsi]

theorem only_valTick (heap : List Frame) (f : Frame) (v : IndVal) (tick : Tick) (mo : Bool) :
    v.onNewTick (heap.map (Spec.onlyFrame K)) (Spec.onlyFrame K f) tick mo = v.onNewTick heap f tick mo := by
  unfold IndVal.onNewTick
  simp only [only_updateRsi]

theorem only_build {ind : Indicator} (h : K ind.ref = true) (heap : List Frame) (id : ℕ) (f : Frame) (mo : Bool) :
    ind.build (heap.map (Spec.onlyFrame K)) id (Spec.onlyFrame K f) mo = ind.build heap id f mo := by
  unfold Indicator.build
  rw [only_newVal h]

/-- Another indicator: the same happens in the erased frame. -/
theorem only_feedOne (heap : List Frame) (id : ℕ) (tick : Tick) (mo : Bool) (f : Frame) (p : String × Indicator)
    (h1 : K p.1 = true) (h2 : K p.2.ref = true) :
    feedOne (heap.map (Spec.onlyFrame K)) id tick mo (Spec.onlyFrame K f) p =
      (Spec.onlyFrame K (feedOne heap id tick mo f p).1, (feedOne heap id tick mo f p).2) := by
  unfold feedOne
  rw [only_get h1]
  have hset : ∀ (k : String) (v : Option IndVal), K k = true →
      ({ Spec.onlyFrame K f with inds := (Spec.onlyFrame K f).inds.set k v } : Frame) =
        Spec.onlyFrame K { f with inds := f.inds.set k v } := by
    intro k v hk
    unfold Spec.onlyFrame
    simp only
    rw [only_set K k hk]
  rcases f.get p.1 with _ | v
  · simp only
    rw [only_build h2]
    rcases p.2.build heap id f mo with e | nv
    · rfl
    · simp only
      rw [hset _ _ h2]
  · simp only
    rw [only_valTick]
    rcases v.onNewTick heap f tick mo with e | v'
    · simp only
      rw [hset _ _ h1]
    · simp only
      rw [hset _ _ h1]

/-- Indicator `r` itself: nothing happens in the erased frame. -/
theorem only_feedOne_self (heap : List Frame) (id : ℕ) (tick : Tick) (mo : Bool) (f : Frame) (p : String × Indicator)
    (h1 : K p.1 = false) (h2 : p.2.ref = p.1) :
    Spec.onlyFrame K (feedOne heap id tick mo f p).1 = Spec.onlyFrame K f := by
  have hset : ∀ v : Option IndVal, Spec.onlyFrame K { f with inds := f.inds.set p.1 v } = Spec.onlyFrame K f := by
    intro v
    unfold Spec.onlyFrame
    simp only
    rw [only_set_self K _ h1]
  unfold feedOne
  rw [h2]
  rcases f.get p.1 with _ | v
  · simp only
    rcases p.2.build heap id f mo with e | nv
    · rfl
    · exact hset nv
  · simp only
    rcases v.onNewTick heap f tick mo with e | v'
    · exact hset _
    · exact hset _

/-- Every indicator is registered under its own reference. -/
def OwnRefs (d : Dict Indicator) : Prop := ∀ p ∈ d, p.2.ref = p.1

theorem feedInds_cons (heap : List Frame) (id : ℕ) (tick : Tick) (mo : Bool) (p : String × Indicator)
    (d : Dict Indicator) (f : Frame) :
    feedInds heap id tick mo (p :: d) f = match feedOne heap id tick mo f p with
      | (f', none) => feedInds heap id tick mo d f'
      | (f', some e) => (f', some e) := by
  rw [feedInds]
  rcases feedOne heap id tick mo f p with ⟨f', _ | e⟩ <;> rfl

theorem only_feedInds (heap : List Frame) (id : ℕ) (tick : Tick) (mo : Bool) (d : Dict Indicator) (hd : OwnRefs d) :
    ∀ f : Frame, (feedInds heap id tick mo d f).2 = none →
    feedInds (heap.map (Spec.onlyFrame K)) id tick mo (Spec.only K d) (Spec.onlyFrame K f) =
      (Spec.onlyFrame K (feedInds heap id tick mo d f).1, none) := by
  induction d with
  | nil => intro f _; rfl
  | cons p d ih =>
    intro f hf
    have hp := hd p (by simp)
    have hd' : OwnRefs d := fun q hq => hd q (by simp [hq])
    rw [feedInds_cons] at hf ⊢
    rcases h : K p.1
    · have hw : Spec.only K (p :: d) = Spec.only K d := by unfold Spec.only; simp [h]
      have hself := only_feedOne_self heap id tick mo f p h hp
      rw [hw]
      rcases hfo : feedOne heap id tick mo f p with ⟨f', _ | e⟩
      · rw [hfo] at hf hself
        simp only at hf hself ⊢
        rw [← ih hd' f' hf, hself]
      · rw [hfo] at hf; simp at hf
    · have hw : Spec.only K (p :: d) = p :: Spec.only K d := by unfold Spec.only; simp [h]
      rw [hw, feedInds_cons, only_feedOne heap id tick mo f p h (by rw [hp]; exact h)]
      rcases hfo : feedOne heap id tick mo f p with ⟨f', _ | e⟩
      · rw [hfo] at hf
        exact ih hd' f' hf
      · rw [hfo] at hf; simp at hf

theorem only_upsert (heap : List Frame) (id : ℕ) (tick : Tick) (mo : Bool) (d : Dict Indicator) (hd : OwnRefs d)
    (f f' : Frame) (h : upsert heap id tick mo d f = .ok f') :
    upsert (heap.map (Spec.onlyFrame K)) id tick mo (Spec.only K d) (Spec.onlyFrame K f) =
      .ok (Spec.onlyFrame K f') := by
  have ha := feedInds_agrees heap id tick mo d f
  rcases hx : (feedInds heap id tick mo d f).2 with _ | e
  · have h1 := ha.ok hx
    rw [h] at h1
    injection h1 with h1
    have h2 := only_feedInds (K := K) heap id tick mo d hd f hx
    have hb := feedInds_agrees (heap.map (Spec.onlyFrame K)) id tick mo (Spec.only K d) (Spec.onlyFrame K f)
    rw [h2] at hb
    rw [hb.ok rfl, h1]
  · have h1 := ha.error hx
    rw [h] at h1
    cases h1

theorem only_feedClean (max : ℤ) (l : List ℕ) : ∀ heap : List Frame,
    feedClean max (heap.map (Spec.onlyFrame K)) l =
      (((feedClean max heap l).1.1.map (Spec.onlyFrame K), (feedClean max heap l).1.2), (feedClean max heap l).2) := by
  induction l with
  | nil => intro heap; rfl
  | cons a l ih =>
    intro heap
    rcases l with _ | ⟨b, rest⟩
    · rfl
    · unfold feedClean
      simp only
      split_ifs
      · rw [map_modify_comm (Spec.onlyFrame K) (fun f => { f with prev := none }) _ (fun f => rfl),
          map_modify_comm (Spec.onlyFrame K) (fun f => { f with next := none }) _ (fun f => rfl)]
        exact ih _
      · rfl

theorem only_linkNext (heap : List Frame) (cur : Option ℕ) (id : ℕ) :
    linkNext (heap.map (Spec.onlyFrame K)) cur id = (linkNext heap cur id).map (Spec.onlyFrame K) := by
  unfold linkNext
  rcases cur with _ | i
  · rfl
  · exact map_modify_comm (Spec.onlyFrame K) (fun f => { f with next := some id }) _ (fun f => rfl) heap i

theorem only_feedCreate (fs : FrameSet) (ho : OwnRefs fs.indicators) (x : Ctx) (tick : Tick) (ps : ℤ) (pe : Option ℤ)
    (h : (fs.feedCreate x tick ps pe).2 = none) :
    (Spec.onlySet K fs).feedCreate x tick ps pe = (Spec.onlySet K (fs.feedCreate x tick ps pe).1, none) := by
  unfold FrameSet.feedCreate at h ⊢
  have hh : (Spec.onlySet K fs).heap = fs.heap.map (Spec.onlyFrame K) := rfl
  have hl : (fs.heap.map (Spec.onlyFrame K)).length = fs.heap.length := List.length_map _
  have hf : (Spec.onlySet K fs).frames = fs.frames := rfl
  have hi : (Spec.onlySet K fs).indicators = Spec.only K fs.indicators := rfl
  have hm : (Spec.onlySet K fs).maxFrames = fs.maxFrames := rfl
  have hn : Frame.fresh tick ps pe fs.frames.getLast? =
      Spec.onlyFrame K (Frame.fresh tick ps pe fs.frames.getLast?) := rfl
  simp only [hh, hl, hf, hi, hm] at h ⊢
  rcases hu : upsert fs.heap fs.heap.length tick x.marketOpen fs.indicators (Frame.fresh tick ps pe fs.frames.getLast?)
    with e | f
  · rw [hu] at h; simp at h
  · rw [hu] at h
    rw [hn, only_upsert _ _ _ _ _ ho _ _ hu]
    simp only at h ⊢
    have happ : linkNext (fs.heap.map (Spec.onlyFrame K)) fs.frames.getLast? fs.heap.length ++ [Spec.onlyFrame K f] =
        (linkNext fs.heap fs.frames.getLast? fs.heap.length ++ [f]).map (Spec.onlyFrame K) := by
      rw [only_linkNext, List.map_append]; rfl
    rw [happ, only_feedClean, h]
    rfl

theorem only_current (fs : FrameSet) :
    (Spec.onlySet K fs).current = fs.current.map (fun p => (p.1, Spec.onlyFrame K p.2)) := by
  unfold FrameSet.current
  have hh : (Spec.onlySet K fs).heap = fs.heap.map (Spec.onlyFrame K) := rfl
  have hf : (Spec.onlySet K fs).frames = fs.frames := rfl
  rw [hh, hf]
  rcases fs.frames.getLast? with _ | i
  · rfl
  · simp only
    rw [List.getElem?_map]
    rcases fs.heap[i]? with _ | f <;> rfl

theorem feedCreate_inds (fs : FrameSet) (x : Ctx) (tick : Tick) (ps : ℤ) (pe : Option ℤ) :
    (fs.feedCreate x tick ps pe).1.indicators = fs.indicators := by
  unfold FrameSet.feedCreate
  simp only
  split <;> rfl

theorem feedFill_inds (x : Ctx) (ps : ℤ) (n : ℕ) : ∀ fs : FrameSet, (feedFill x ps n fs).1.indicators = fs.indicators := by
  induction n with
  | zero =>
    intro fs
    unfold feedFill
    rcases fs.current with _ | ⟨i, f⟩
    · rfl
    · simp only
      rcases f.periodEnd with _ | pe
      · rfl
      · simp only
        split_ifs <;> rfl
  | succ n ih =>
    intro fs
    unfold feedFill
    rcases fs.current with _ | ⟨i, f⟩
    · rfl
    · simp only
      rcases f.periodEnd with _ | pe
      · rfl
      · simp only
        split_ifs
        · have hi := feedCreate_inds fs x f.last pe (some (frameEnd x.zone fs.unit fs.qty pe))
          rcases hx : fs.feedCreate x f.last pe (some (frameEnd x.zone fs.unit fs.qty pe)) with ⟨fs', _ | e⟩ <;>
            rw [hx] at hi
          · exact (ih fs').trans hi
          · exact hi
        · rfl

theorem only_feedFill (x : Ctx) (ps : ℤ) (n : ℕ) : ∀ fs : FrameSet, OwnRefs fs.indicators →
    (feedFill x ps n fs).2 = none →
    feedFill x ps n (Spec.onlySet K fs) = (Spec.onlySet K (feedFill x ps n fs).1, none) := by
  induction n with
  | zero =>
    intro fs _ h
    unfold feedFill at h ⊢
    rw [only_current]
    rcases hc : fs.current with _ | ⟨i, f⟩
    · rfl
    · rw [hc] at h
      simp only [Option.map_some] at h ⊢
      have hp : (Spec.onlyFrame K f).periodEnd = f.periodEnd := rfl
      rw [hp]
      rcases hpe : f.periodEnd with _ | pe
      · rw [hpe] at h; simp at h
      · rw [hpe] at h
        simp only at h ⊢
        split_ifs at h ⊢
        rfl
  | succ n ih =>
    intro fs ho h
    unfold feedFill at h ⊢
    rw [only_current]
    rcases hc : fs.current with _ | ⟨i, f⟩
    · rfl
    · rw [hc] at h
      simp only [Option.map_some] at h ⊢
      have hp : (Spec.onlyFrame K f).periodEnd = f.periodEnd := rfl
      have hlast : (Spec.onlyFrame K f).last = f.last := rfl
      have hu : (Spec.onlySet K fs).unit = fs.unit := rfl
      have hq : (Spec.onlySet K fs).qty = fs.qty := rfl
      rw [hp, hlast, hu, hq]
      rcases hpe : f.periodEnd with _ | pe
      · rw [hpe] at h; simp at h
      · rw [hpe] at h
        simp only at h ⊢
        split_ifs at h ⊢
        · have hcr := only_feedCreate (K := K) fs ho x f.last pe (some (frameEnd x.zone fs.unit fs.qty pe))
          have hin := feedCreate_inds fs x f.last pe (some (frameEnd x.zone fs.unit fs.qty pe))
          rcases hx : fs.feedCreate x f.last pe (some (frameEnd x.zone fs.unit fs.qty pe)) with ⟨fs', _ | e⟩
          · rw [hx] at hcr h hin
            rw [hcr rfl]
            exact ih fs' (by simp only at hin; rw [hin]; exact ho) h
          · rw [hx] at h; simp at h
        · rfl

theorem only_fillFuel (fs : FrameSet) (ps : ℤ) : fillFuel (Spec.onlySet K fs) ps = fillFuel fs ps := by
  unfold fillFuel
  rw [only_current]
  rcases fs.current with _ | ⟨i, f⟩ <;> rfl

theorem only_feedLast (fs : FrameSet) (ho : OwnRefs fs.indicators) (x : Ctx) (tick : Tick)
    (h : (fs.feedLast x tick).2 = none) :
    (Spec.onlySet K fs).feedLast x tick = (Spec.onlySet K (fs.feedLast x tick).1, none) := by
  unfold FrameSet.feedLast at h ⊢
  rw [only_current]
  rcases hc : fs.current with _ | ⟨i, f⟩
  · rfl
  · rw [hc] at h
    simp only [Option.map_some] at h ⊢
    have hh : (Spec.onlySet K fs).heap = fs.heap.map (Spec.onlyFrame K) := rfl
    have hi : (Spec.onlySet K fs).indicators = Spec.only K fs.indicators := rfl
    have ht : (Spec.onlyFrame K f).track tick = Spec.onlyFrame K (f.track tick) := by
      unfold Frame.track Spec.onlyFrame
      simp only
      split_ifs <;> rfl
    rw [hh, hi, ht, only_feedInds _ _ _ _ _ ho _ h]
    unfold Spec.onlySet
    simp only [List.map_set]

theorem only_feedTimed (fs : FrameSet) (ho : OwnRefs fs.indicators) (x : Ctx) (tick : Tick)
    (h : (fs.feedTimed x tick).2 = none) :
    (Spec.onlySet K fs).feedTimed x tick = (Spec.onlySet K (fs.feedTimed x tick).1, none) := by
  unfold FrameSet.feedTimed at h ⊢
  have hu : (Spec.onlySet K fs).unit = fs.unit := rfl
  have hq : (Spec.onlySet K fs).qty = fs.qty := rfl
  rw [hu, hq]
  rcases hs : frameStart fs.unit fs.qty tick.dt.wall with e | ps
  · rw [hs] at h; simp at h
  · rw [hs] at h
    simp only at h ⊢
    rw [only_fillFuel]
    have hin := feedFill_inds x ps (fillFuel fs ps) fs
    have hfl := only_feedFill (K := K) x ps (fillFuel fs ps) fs ho
    rcases hf : feedFill x ps (fillFuel fs ps) fs with ⟨fs', _ | e⟩
    · rw [hf] at h hin hfl
      rw [hfl rfl]
      exact only_feedCreate fs' (by simp only at hin; rw [hin]; exact ho) x tick ps _ h
    · rw [hf] at h; simp at h

theorem only_feed (fs : FrameSet) (ho : OwnRefs fs.indicators) (x : Ctx) (tick : Tick)
    (h : (fs.feed x tick).2 = none) :
    (Spec.onlySet K fs).feed x tick = (Spec.onlySet K (fs.feed x tick).1, none) := by
  have hu : (Spec.onlySet K fs).unit = fs.unit := rfl
  have hq : (Spec.onlySet K fs).qty = fs.qty := rfl
  have hover : (Spec.onlySet K fs).overTick x tick = fs.overTick x tick := by
    unfold FrameSet.overTick
    rw [only_current, hq]
    rcases fs.current with _ | ⟨i, f⟩ <;> rfl
  have htimed : (Spec.onlySet K fs).overTimed tick = fs.overTimed tick := by
    unfold FrameSet.overTimed
    rw [only_current]
    rcases fs.current with _ | ⟨i, f⟩ <;> rfl
  unfold FrameSet.feed at h ⊢
  rw [hu, hover, htimed]
  split_ifs at h ⊢
  · exact only_feedCreate fs ho x tick _ _ h
  · exact only_feedLast fs ho x tick h
  · rcases ht : fs.overTimed tick with e | b
    · rw [ht] at h; simp at h
    · rw [ht] at h
      simp only at h ⊢
      split_ifs at h ⊢
      · exact only_feedTimed fs ho x tick h
      · exact only_feedLast fs ho x tick h

theorem feed_inds (fs : FrameSet) (x : Ctx) (tick : Tick) : (fs.feed x tick).1.indicators = fs.indicators := by
  have hlast : (fs.feedLast x tick).1.indicators = fs.indicators := by
    unfold FrameSet.feedLast
    rcases fs.current with _ | ⟨i, f⟩ <;> rfl
  have htimed : (fs.feedTimed x tick).1.indicators = fs.indicators := by
    unfold FrameSet.feedTimed
    rcases frameStart fs.unit fs.qty tick.dt.wall with e | ps
    · rfl
    · simp only
      have hin := feedFill_inds x ps (fillFuel fs ps) fs
      rcases hx : feedFill x ps (fillFuel fs ps) fs with ⟨fs', _ | e⟩ <;> rw [hx] at hin
      · exact (feedCreate_inds fs' x tick ps _).trans hin
      · exact hin
  unfold FrameSet.feed
  split_ifs
  · exact feedCreate_inds fs x tick _ _
  · exact hlast
  · rcases fs.overTimed tick with e | b
    · rfl
    · simp only
      split_ifs
      · exact htimed
      · exact hlast

/-! ## Registering indicators -/

theorem ownRefs_set {d : Dict Indicator} (h : OwnRefs d) (ind : Indicator) : OwnRefs (d.set ind.ref ind) := by
  intro p hp
  unfold Dict.set at hp
  split_ifs at hp
  · obtain ⟨q, hq, rfl⟩ := List.mem_map.1 hp
    split_ifs
    · rfl
    · exact h q hq
  · rcases List.mem_append.1 hp with hp | hp
    · exact h p hp
    · rw [List.mem_singleton.1 hp]

theorem addIndicator_own {fs : FrameSet} (h : OwnRefs fs.indicators) (ind : Indicator) :
    OwnRefs (fs.addIndicator ind).1.indicators := by
  unfold FrameSet.addIndicator
  rcases hk : ind.kind <;> exact ownRefs_set h _

theorem only_addIndicator (fs : FrameSet) (ind : Indicator) (h : K ind.ref = true) :
    (Spec.onlySet K fs).addIndicator ind =
      (Spec.onlySet K (fs.addIndicator ind).1, (fs.addIndicator ind).2) := by
  unfold FrameSet.addIndicator Spec.onlySet
  rcases hk : ind.kind <;> simp only <;> rw [only_set K ind.ref h]

theorem only_addIndicator_self (fs : FrameSet) (ind : Indicator) (h : K ind.ref = false) :
    Spec.onlySet K (fs.addIndicator ind).1 = Spec.onlySet K fs := by
  unfold FrameSet.addIndicator Spec.onlySet
  rcases hk : ind.kind <;> simp only <;> rw [only_set_self K _ h]

theorem exec_own {fs : FrameSet} (h : OwnRefs fs.indicators) (x : Spec.SetCmd) : OwnRefs (x.exec fs).indicators := by
  rcases x with ind | ⟨c, t⟩
  · exact addIndicator_own h ind
  · unfold Spec.SetCmd.exec
    simp only
    rw [feed_inds]
    exact h

theorem only_exec (fs : FrameSet) (h : OwnRefs fs.indicators) (x : Spec.SetCmd) (hx : x.calm fs)
    (hw : x.within K = true) :
    x.calm (Spec.onlySet K fs) ∧ x.exec (Spec.onlySet K fs) = Spec.onlySet K (x.exec fs) := by
  rcases x with ind | ⟨c, t⟩
  · refine ⟨trivial, ?_⟩
    unfold Spec.SetCmd.exec
    simp only
    rw [only_addIndicator fs ind hw]
  · unfold Spec.SetCmd.calm Spec.SetCmd.exec at *
    simp only at hx ⊢
    rw [only_feed fs h c t hx]
    exact ⟨rfl, rfl⟩

theorem only_exec_self (fs : FrameSet) (x : Spec.SetCmd) (hw : x.within K = false) :
    Spec.onlySet K (x.exec fs) = Spec.onlySet K fs := by
  rcases x with ind | ⟨c, t⟩
  · exact only_addIndicator_self fs ind hw
  · cases hw

end

/-! ## C81 -/

/-- C81 (partial: false if a tick raises an exception, `C81_false`): in every history of registrations and ticks, the
frame set restricted to the indicators in `K` is the frame set of the same history in which only the indicators in `K`
are registered; and no tick raises there either. -/
theorem C81_isolated_partial (K : String → Bool) (l : List Spec.SetCmd) : ∀ (fs : FrameSet)
    (_ : ∀ p ∈ fs.indicators, p.2.ref = p.1) (_ : Spec.SetCalm fs l),
    Spec.setRun (Spec.onlySet K fs) (l.filter (Spec.SetCmd.within K)) = Spec.onlySet K (Spec.setRun fs l) ∧
      Spec.SetCalm (Spec.onlySet K fs) (l.filter (Spec.SetCmd.within K)) := by
  induction l with
  | nil => intro fs _ _; exact ⟨rfl, trivial⟩
  | cons x l ih =>
    intro fs ho hc
    obtain ⟨hx, hl⟩ := hc
    have hi := ih (x.exec fs) (exec_own ho x) hl
    rcases hw : x.within K
    · rw [List.filter_cons, if_neg (by rw [hw]; decide)]
      rw [only_exec_self fs x hw] at hi
      exact hi
    · rw [List.filter_cons, if_pos hw]
      obtain ⟨h1, h2⟩ := only_exec fs ho x hx hw
      have hr : Spec.setRun (Spec.onlySet K fs) (x :: l.filter (Spec.SetCmd.within K)) =
          Spec.setRun (x.exec (Spec.onlySet K fs)) (l.filter (Spec.SetCmd.within K)) := rfl
      have hr' : Spec.setRun fs (x :: l) = Spec.setRun (x.exec fs) l := rfl
      refine ⟨?_, h1, ?_⟩
      · rw [hr, hr', h2]; exact hi.1
      · rw [h2]; exact hi.2

/-- C81 (partial, as above): the values of indicator `k`, in every frame ever made, are determined by the ticks and the
registrations of `k`: in a new frame set they are the ones it has when it is alone. -/
theorem C81_alone_partial (k : String) (u : Unit') (q m : ℤ) (fs : FrameSet) (hn : FrameSet.new u q m = .ok fs)
    (l : List Spec.SetCmd) (hc : Spec.SetCalm fs l) (i : ℕ) :
    ((Spec.setRun fs (l.filter (Spec.SetCmd.within (· == k)))).heap[i]?).map (·.get k) =
      ((Spec.setRun fs l).heap[i]?).map (·.get k) ∧
    (Spec.setRun fs (l.filter (Spec.SetCmd.within (· == k)))).frames = (Spec.setRun fs l).frames := by
  obtain ⟨h1, h2⟩ : fs.indicators = [] ∧ fs.heap = [] := by
    unfold FrameSet.new at hn
    rcases hk : checkTimeframe u q with e | x <;> rw [hk] at hn
    · cases hn
    · injection hn with hn
      rw [← hn]
      exact ⟨rfl, rfl⟩
  have hfs : Spec.onlySet (· == k) fs = fs := by
    unfold Spec.onlySet
    rw [h1, h2]
    rcases fs
    simp_all [Spec.only]
  have h := (C81_isolated_partial (· == k) l fs (by rw [h1]; simp) hc).1
  rw [hfs] at h
  rw [h]
  refine ⟨?_, rfl⟩
  unfold Spec.onlySet
  simp only
  rw [List.getElem?_map, Option.map_map]
  congr 1
  funext f
  exact only_get (by simp) f

/-- C81 (partial, as above): two histories with the same ticks and the same registrations of `k` give `k` the same
values in the same frames, whatever else is registered. -/
theorem C81_same_partial (k : String) (u : Unit') (q m : ℤ) (fs : FrameSet) (hn : FrameSet.new u q m = .ok fs)
    (l l' : List Spec.SetCmd) (hc : Spec.SetCalm fs l) (hc' : Spec.SetCalm fs l')
    (hl : l.filter (Spec.SetCmd.within (· == k)) = l'.filter (Spec.SetCmd.within (· == k))) (i : ℕ) :
    ((Spec.setRun fs l).heap[i]?).map (·.get k) = ((Spec.setRun fs l').heap[i]?).map (·.get k) := by
  rw [← (C81_alone_partial k u q m fs hn l hc i).1, ← (C81_alone_partial k u q m fs hn l' hc' i).1, hl]

end

/-- Three indicators registered at different moments, one replaced by another kind, five ticks. -/
def Demo.isolated : List Spec.SetCmd :=
  [.add ⟨"sma", .sma 2, false⟩, .feed ⟨Zone.utc, none⟩ (Demo.tk 480 10 12), .add ⟨"rsi", .rsi 1 none, false⟩,
   .feed ⟨Zone.utc, none⟩ (Demo.tk 481 11 13), .add ⟨"ha", .heikin, false⟩, .feed ⟨Zone.utc, none⟩ (Demo.tk 481 12 14),
   .feed ⟨Zone.utc, none⟩ (Demo.tk 482 9 11), .add ⟨"ha", .pivotClassic, true⟩,
   .feed ⟨Zone.utc, none⟩ (Demo.tk 484 10 12)]

/-- The closes kept by the average in each of the five frames: the same when it is alone; the history calm. -/
example : letI := Arith.exact
    Spec.SetCalm Demo.minutes Demo.isolated ∧
    (Spec.setRun Demo.minutes (Demo.isolated.filter (Spec.SetCmd.within (· == "sma")))).heap.map
        (fun f => (f.get "sma").map IndVal.closes) =
      (Spec.setRun Demo.minutes Demo.isolated).heap.map (fun f => (f.get "sma").map IndVal.closes) ∧
    (Spec.setRun Demo.minutes Demo.isolated).heap.map (fun f => (f.get "sma").map IndVal.closes) =
      [some [], some [11], some [13], some [10], some [10]] ∧
    (Spec.setRun Demo.minutes Demo.isolated).heap.map (fun f => (f.get "rsi").isSome) =
      [false, true, true, true, true] ∧
    (Spec.setRun Demo.minutes Demo.isolated).heap.map (fun f => (f.get "ha").isSome) =
      [false, true, true, false, false] := by
  letI := Arith.exact
  refine ⟨⟨trivial, ?_, trivial, ?_, trivial, ?_, ?_, trivial, ?_, trivial⟩, ?_⟩
  all_goals (try unfold Spec.SetCmd.calm)
  all_goals decide +kernel

/-- C81 as stated is false: an RSI of 0 periods raises at every new frame, so that no frame is made and the moving
average registered with it has no value; alone it has one. -/
theorem C81_false : ¬ ∀ (_ : Arith) (k : String) (u : Unit') (q m : ℤ) (fs : FrameSet) (_ : FrameSet.new u q m = .ok fs)
    (l : List Spec.SetCmd) (i : ℕ),
    ((Spec.setRun fs (l.filter (Spec.SetCmd.within (· == k)))).heap[i]?).map (·.get k) =
      ((Spec.setRun fs l).heap[i]?).map (·.get k) := by
  intro h
  have := h Arith.exact "sma" .minute 1 10 Demo.minutes rfl
    [.add ⟨"sma", .sma 2, false⟩, .add ⟨"rsi", .rsi 0 none, false⟩, .feed ⟨Zone.utc, none⟩ (Demo.tk 480 10 12)] 0
  revert this
  decide +kernel

end Estrade
