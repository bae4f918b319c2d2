import Verif.Lemmas.Mapping

/-!
# Frame sets with other datetimes

Nothing in a frame depends on the datetimes of its ticks and on its bounds, except the decision when to begin the next one: the
constructors and updates of frames commute with any change `g` of datetimes and `b` of bounds.
-/

set_option linter.style.haveILetI false
set_option linter.unusedSectionVars false
set_option autoImplicit false

namespace Estrade

/-- Spec: the tick with another datetime. -/
def Spec.redateTick (g : DT → DT) (t : Tick) : Tick := { t with dt := g t.dt }

/-- Spec: the indicator value with other datetimes. -/
def Spec.redateVal (g : DT → DT) (v : IndVal) : IndVal :=
  { v with
    first := Spec.redateTick g v.first
    high := Spec.redateTick g v.high
    low := Spec.redateTick g v.low
    last := Spec.redateTick g v.last }

/-- Spec: the frame with other datetimes. -/
def Spec.redateFrame (g : DT → DT) (b : ℤ → ℤ) (f : Frame) : Frame :=
  { f with
    periodStart := b f.periodStart
    periodEnd := f.periodEnd.map b
    first := Spec.redateTick g f.first
    high := Spec.redateTick g f.high
    low := Spec.redateTick g f.low
    last := Spec.redateTick g f.last
    inds := f.inds.map (fun p => (p.1, p.2.map (Spec.redateVal g))) }

/-- Spec: the frame set with other datetimes. -/
def Spec.redateSet (g : DT → DT) (b : ℤ → ℤ) (fs : FrameSet) : FrameSet := { fs with heap := fs.heap.map (Spec.redateFrame g b) }

section
variable [Arith] {g : DT → DT} {b : ℤ → ℤ}

theorem redate_value (t : Tick) : (Spec.redateTick g t).value = t.value := rfl

/-! ## Frames and indicator values -/

theorem redate_get (f : Frame) (ref : String) :
    (Spec.redateFrame g b f).get ref = (f.get ref).map (Spec.redateVal g) := by
  unfold Frame.get Spec.redateFrame
  simp only
  rw [Dict.get?_map]
  rcases f.inds.get? ref with _ | _ | v <;> rfl

theorem redate_setInd (f : Frame) (ref : String) (v : Option IndVal) :
    { Spec.redateFrame g b f with inds := (Spec.redateFrame g b f).inds.set ref (v.map (Spec.redateVal g)) } =
      Spec.redateFrame g b { f with inds := f.inds.set ref v } := by
  unfold Spec.redateFrame
  simp only
  rw [Dict.set_map (fun v : Option IndVal => v.map (Spec.redateVal g))]

theorem redate_prevValue (heap : List Frame) (ref : String) (n : ℕ) : ∀ i : Option ℕ,
    prevValue (heap.map (Spec.redateFrame g b)) ref n i = (prevValue heap ref n i).map (Spec.redateVal g) := by
  induction n with
  | zero => intro i; rfl
  | succ n ih =>
    intro i
    rcases i with _ | i
    · rfl
    · unfold prevValue
      rw [List.getElem?_map]
      rcases heap[i]? with _ | f
      · rfl
      · simp only [Option.map_some]
        rw [redate_get]
        rcases f.get ref with _ | v
        · exact ih f.prev
        · rfl

theorem redate_extendedCloses (v : IndVal) (f : Frame) :
    extendedCloses (Spec.redateVal g v) (Spec.redateFrame g b f) = extendedCloses v f := rfl

theorem redate_extendedChanges (heap : List Frame) (v : IndVal) (f : Frame) :
    extendedChanges (heap.map (Spec.redateFrame g b)) (Spec.redateVal g v) (Spec.redateFrame g b f) =
      extendedChanges heap v f := by
  unfold extendedChanges
  have hp : (Spec.redateFrame g b f).prev = f.prev := rfl
  rw [hp]
  rcases f.prev with _ | p
  · rfl
  · simp only
    rw [List.getElem?_map]
    rcases heap[p]? with _ | g <;> rfl

theorem redate_prevCloses (heap : List Frame) (p : IndVal) :
    prevCloses (heap.map (Spec.redateFrame g b)) (Spec.redateVal g p) = prevCloses heap p := by
  unfold prevCloses
  have hk : (Spec.redateVal g p).ind = p.ind := rfl
  have hf : (Spec.redateVal g p).frame = p.frame := rfl
  rw [hk, hf, List.getElem?_map]
  rcases p.ind.kind <;> try rfl
  rcases heap[p.frame]? with _ | g
  · rfl
  · simp only [Option.map_some]
    rw [redate_extendedCloses]

theorem redate_prevChanges (heap : List Frame) (p : IndVal) :
    prevChanges (heap.map (Spec.redateFrame g b)) (Spec.redateVal g p) = prevChanges heap p := by
  unfold prevChanges
  have hk : (Spec.redateVal g p).ind = p.ind := rfl
  have hf : (Spec.redateVal g p).frame = p.frame := rfl
  rw [hk, hf, List.getElem?_map]
  rcases p.ind.kind <;> try rfl
  rcases heap[p.frame]? with _ | g
  · rfl
  · simp only [Option.map_some]
    rw [redate_extendedChanges]

theorem redate_updateRsi (heap : List Frame) (f : Frame) (n : ℤ) (v : IndVal) :
    updateRsi (heap.map (Spec.redateFrame g b)) (Spec.redateFrame g b f) n (Spec.redateVal g v) =
      (updateRsi heap f n v).map (Spec.redateVal g) := by
  unfold updateRsi
  rw [redate_extendedChanges]
  simp only
  split_ifs
  · rcases buildRsi n (extendedChanges heap v f) with e | r <;> rfl
  · rfl

theorem redate_newVal (heap : List Frame) (ind : Indicator) (id : ℕ) (f : Frame) :
    IndVal.new (heap.map (Spec.redateFrame g b)) ind id (Spec.redateFrame g b f) =
      (IndVal.new heap ind id f).map (Spec.redateVal g) := by
  unfold IndVal.new
  have hb : IndVal.base ind id (Spec.redateFrame g b f) = Spec.redateVal g (IndVal.base ind id f) := rfl
  have hp : (Spec.redateFrame g b f).prev = f.prev := rfl
  have hl : (heap.map (Spec.redateFrame g b)).length = heap.length := List.length_map _
  rw [hb, hp, hl, redate_prevValue]
  rcases ind.kind with _ | _ | _ | _ | _ | mp | ⟨q, rp⟩ <;> try rfl
  · simp only
    rcases prevValue heap ind.ref heap.length f.prev with _ | p
    · rfl
    · simp only [Option.map_some]
      rw [redate_prevCloses]
      rcases prevCloses heap p with e | l <;> rfl
  · rcases rp with _ | n
    · rfl
    · simp only
      split_ifs
      · rfl
      · rcases prevValue heap ind.ref heap.length f.prev with _ | p
        · simp only [Option.map_none, bind, Except.bind]
          rw [← redate_updateRsi]
          rfl
        · simp only [Option.map_some]
          rw [redate_prevChanges]
          rcases prevChanges heap p with e | l
          · rfl
          · simp only [bind, Except.bind]
            rw [← redate_updateRsi]
            rfl

theorem redate_build (heap : List Frame) (ind : Indicator) (id : ℕ) (f : Frame) (mo : Bool) :
    ind.build (heap.map (Spec.redateFrame g b)) id (Spec.redateFrame g b f) mo =
      (ind.build heap id f mo).map (Option.map (Spec.redateVal g)) := by
  unfold Indicator.build
  rw [redate_newVal]
  split_ifs
  · rcases IndVal.new heap ind id f with e | v <;> rfl
  · rfl

theorem redate_trackVal (v : IndVal) (tick : Tick) (mo : Bool) :
    (Spec.redateVal g v).track (Spec.redateTick g tick) mo = Spec.redateVal g (v.track tick mo) := by
  unfold IndVal.track
  have h1 : (Spec.redateVal g v).high.value = v.high.value := redate_value _
  have h2 : (Spec.redateVal g v).low.value = v.low.value := redate_value _
  have hk : (Spec.redateVal g v).ind = v.ind := rfl
  simp only [h1, h2, hk, redate_value tick]
  split_ifs <;> rfl

theorem redate_valTick (heap : List Frame) (f : Frame) (v : IndVal) (tick : Tick) (mo : Bool) :
    (Spec.redateVal g v).onNewTick (heap.map (Spec.redateFrame g b)) (Spec.redateFrame g b f) (Spec.redateTick g tick) mo =
      (v.onNewTick heap f tick mo).map (Spec.redateVal g) := by
  unfold IndVal.onNewTick
  have hk : (Spec.redateVal g v).ind = v.ind := rfl
  rw [hk, redate_trackVal]
  rcases v.ind.kind with _ | _ | _ | _ | _ | _ | ⟨q, _ | n⟩ <;> try rfl
  exact redate_updateRsi heap f n _

theorem redate_trackFrame (f : Frame) (tick : Tick) :
    (Spec.redateFrame g b f).track (Spec.redateTick g tick) = Spec.redateFrame g b (f.track tick) := by
  unfold Frame.track
  have h1 : (Spec.redateFrame g b f).high.value = f.high.value := redate_value _
  have h2 : (Spec.redateFrame g b f).low.value = f.low.value := redate_value _
  simp only [h1, h2, redate_value tick]
  split_ifs <;> rfl

theorem redate_upsertOne (heap : List Frame) (id : ℕ) (tick : Tick) (mo : Bool) (f : Frame) (p : String × Indicator) :
    upsertOne (heap.map (Spec.redateFrame g b)) id (Spec.redateTick g tick) mo (Spec.redateFrame g b f) p =
      (upsertOne heap id tick mo f p).map (Spec.redateFrame g b) := by
  unfold upsertOne
  rw [redate_get]
  rcases f.get p.1 with _ | v
  · simp only [Option.map_none]
    rw [redate_build]
    rcases p.2.build heap id f mo with e | nv
    · rfl
    · simp only [Except.map, bind, Except.bind]
      rw [redate_setInd]
  · simp only [Option.map_some]
    rw [redate_valTick]
    rcases v.onNewTick heap f tick mo with e | v'
    · rfl
    · simp only [Except.map, bind, Except.bind]
      exact congrArg Except.ok (redate_setInd f p.1 (some v'))

theorem redate_upsert (heap : List Frame) (id : ℕ) (tick : Tick) (mo : Bool) (d : Dict Indicator) : ∀ f : Frame,
    upsert (heap.map (Spec.redateFrame g b)) id (Spec.redateTick g tick) mo d (Spec.redateFrame g b f) =
      (upsert heap id tick mo d f).map (Spec.redateFrame g b) := by
  induction d with
  | nil => intro f; rfl
  | cons p d ih =>
    intro f
    unfold upsert at ih ⊢
    simp only [List.foldlM_cons]
    rw [redate_upsertOne]
    rcases upsertOne heap id tick mo f p with e | f'
    · rfl
    · exact ih f'

theorem redate_feedOne (heap : List Frame) (id : ℕ) (tick : Tick) (mo : Bool) (f : Frame) (p : String × Indicator) :
    feedOne (heap.map (Spec.redateFrame g b)) id (Spec.redateTick g tick) mo (Spec.redateFrame g b f) p =
      (Spec.redateFrame g b (feedOne heap id tick mo f p).1, (feedOne heap id tick mo f p).2) := by
  unfold feedOne
  rw [redate_get]
  rcases f.get p.1 with _ | v
  · simp only [Option.map_none]
    rw [redate_build]
    rcases p.2.build heap id f mo with e | nv
    · rfl
    · simp only [Except.map]
      rw [redate_setInd]
  · simp only [Option.map_some]
    rw [redate_valTick, redate_trackVal]
    rcases v.onNewTick heap f tick mo with e | v'
    · exact congrArg (·, some e) (redate_setInd f p.1 (some (v.track tick mo)))
    · exact congrArg (·, none) (redate_setInd f p.1 (some v'))

theorem redate_feedInds (heap : List Frame) (id : ℕ) (tick : Tick) (mo : Bool) (d : Dict Indicator) : ∀ f : Frame,
    feedInds (heap.map (Spec.redateFrame g b)) id (Spec.redateTick g tick) mo d (Spec.redateFrame g b f) =
      (Spec.redateFrame g b (feedInds heap id tick mo d f).1, (feedInds heap id tick mo d f).2) := by
  induction d with
  | nil => intro f; rfl
  | cons p d ih =>
    intro f
    unfold feedInds
    rw [redate_feedOne]
    rcases feedOne heap id tick mo f p with ⟨f', _ | e⟩
    · exact ih f'
    · rfl

theorem redate_feedClean (max : ℤ) (l : List ℕ) : ∀ heap : List Frame,
    feedClean max (heap.map (Spec.redateFrame g b)) l =
      (((feedClean max heap l).1.1.map (Spec.redateFrame g b), (feedClean max heap l).1.2), (feedClean max heap l).2) := by
  induction l with
  | nil => intro heap; rfl
  | cons a l ih =>
    intro heap
    rcases l with _ | ⟨d, rest⟩
    · rfl
    · unfold feedClean
      simp only
      split_ifs
      · rw [map_modify_comm (Spec.redateFrame g b) (fun f => { f with prev := none }) _ (fun f => rfl),
          map_modify_comm (Spec.redateFrame g b) (fun f => { f with next := none }) _ (fun f => rfl)]
        exact ih _
      · rfl

theorem redate_linkNext (heap : List Frame) (cur : Option ℕ) (id : ℕ) :
    linkNext (heap.map (Spec.redateFrame g b)) cur id = (linkNext heap cur id).map (Spec.redateFrame g b) := by
  unfold linkNext
  rcases cur with _ | i
  · rfl
  · exact map_modify_comm (Spec.redateFrame g b) (fun f => { f with next := some id }) _ (fun f => rfl) heap i

/-- Spec: outcome of a call on a frame set with other datetimes. -/
def Spec.redateFed (g : DT → DT) (b : ℤ → ℤ) (r : FrameSet × Option PyErr) : FrameSet × Option PyErr := (Spec.redateSet g b r.1, r.2)

theorem redate_feedCreate (fs : FrameSet) (x : Ctx) (tick : Tick) (ps : ℤ) (pe : Option ℤ) :
    (Spec.redateSet g b fs).feedCreate x (Spec.redateTick g tick) (b ps)
        (pe.map b) = Spec.redateFed g b (fs.feedCreate x tick ps pe) := by
  unfold FrameSet.feedCreate
  have hh : (Spec.redateSet g b fs).heap = fs.heap.map (Spec.redateFrame g b) := rfl
  have hl : (fs.heap.map (Spec.redateFrame g b)).length = fs.heap.length := List.length_map _
  have hf : (Spec.redateSet g b fs).frames = fs.frames := rfl
  have hi : (Spec.redateSet g b fs).indicators = fs.indicators := rfl
  have hm : (Spec.redateSet g b fs).maxFrames = fs.maxFrames := rfl
  have hn : Frame.fresh (Spec.redateTick g tick) (b ps) (pe.map b) fs.frames.getLast? =
      Spec.redateFrame g b (Frame.fresh tick ps pe fs.frames.getLast?) := rfl
  simp only [hh, hl, hf, hi, hm, hn]
  rw [redate_upsert]
  rcases upsert fs.heap fs.heap.length tick x.marketOpen fs.indicators (Frame.fresh tick ps pe fs.frames.getLast?)
    with e | f
  · rfl
  · simp only [Except.map]
    have happ : linkNext (fs.heap.map (Spec.redateFrame g b)) fs.frames.getLast? fs.heap.length ++ [Spec.redateFrame g b f] =
        (linkNext fs.heap fs.frames.getLast? fs.heap.length ++ [f]).map (Spec.redateFrame g b) := by
      rw [redate_linkNext, List.map_append]; rfl
    rw [happ, redate_feedClean]
    rfl

theorem redate_current (fs : FrameSet) :
    (Spec.redateSet g b fs).current = fs.current.map (fun p => (p.1, Spec.redateFrame g b p.2)) := by
  unfold FrameSet.current
  have hh : (Spec.redateSet g b fs).heap = fs.heap.map (Spec.redateFrame g b) := rfl
  have hf : (Spec.redateSet g b fs).frames = fs.frames := rfl
  rw [hh, hf]
  rcases fs.frames.getLast? with _ | i
  · rfl
  · simp only
    rw [List.getElem?_map]
    rcases fs.heap[i]? with _ | f <;> rfl

theorem redate_feedLast (fs : FrameSet) (x : Ctx) (tick : Tick) :
    (Spec.redateSet g b fs).feedLast x (Spec.redateTick g tick) = Spec.redateFed g b (fs.feedLast x tick) := by
  unfold FrameSet.feedLast
  rw [redate_current]
  rcases fs.current with _ | ⟨i, f⟩
  · rfl
  · simp only [Option.map_some]
    have hh : (Spec.redateSet g b fs).heap = fs.heap.map (Spec.redateFrame g b) := rfl
    have hi : (Spec.redateSet g b fs).indicators = fs.indicators := rfl
    rw [hh, hi, redate_trackFrame, redate_feedInds]
    unfold Spec.redateFed Spec.redateSet
    simp only [List.map_set]

end
end Estrade
