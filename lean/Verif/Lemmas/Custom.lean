import Verif.Custom
import Verif.Lemmas.Feed
import Verif.Lemmas.TickSet
import Verif.Lemmas.Dicts

/-!
# Frame sets with indicators written by users: the frames without the values
-/

set_option autoImplicit false
set_option linter.unusedSectionVars false

namespace Estrade

/-- A frame without its values. -/
def UFrame.bones {β : Type} (f : UFrame β) : Frame :=
  ⟨f.periodStart, f.periodEnd, f.prev, f.next, f.nbTicks, f.first, f.high, f.low, f.last, []⟩

/-- A frame set without indicators and values. -/
def UFrameSet.bones {β : Type} (fs : UFrameSet β) : FrameSet :=
  ⟨fs.unit, fs.qty, fs.maxFrames, fs.heap.map UFrame.bones, fs.frames, []⟩

section
variable [Arith] {β : Type}

theorem ufeedOne_bones (M : Methods β) (heap : List (UFrame β)) (id : ℕ) (t : Tick) (mo : Bool) (f : UFrame β) (p : String × UInd β) :
    (ufeedOne M heap id t mo f p).1.bones = f.bones := by
  have hr : (match p.2.build heap id f mo with
      | .ok nv => (({ f with vals := f.vals.set p.2.ref nv } : UFrame β), (none : Option PyErr))
      | .error e => (f, some e)).1.bones = f.bones := by
    split <;> rfl
  unfold ufeedOne
  dsimp only
  split
  · split_ifs
    · rfl
    · exact hr
  · exact hr

theorem ufeedInds_bones (M : Methods β) (heap : List (UFrame β)) (id : ℕ) (t : Tick) (mo : Bool) (inds : Dict (UInd β)) : ∀ f : UFrame β,
    (ufeedInds M heap id t mo inds f).1.bones = f.bones := by
  induction inds with
  | nil => intro f; rfl
  | cons p rest ih =>
    intro f
    have h := ufeedOne_bones M heap id t mo f p
    unfold ufeedInds
    rcases hx : ufeedOne M heap id t mo f p with ⟨f', _ | e⟩ <;> rw [hx] at h
    · dsimp only; rw [ih f']; exact h
    · exact h

theorem track_bones (f : UFrame β) (t : Tick) : (f.track t).bones = f.bones.track t := by
  unfold UFrame.track Frame.track
  dsimp only [UFrame.bones]
  split_ifs <;> rfl

theorem map_modify_bones (heap : List (UFrame β)) (i : ℕ) (g : UFrame β → UFrame β) (g' : Frame → Frame) (h : ∀ f, (g f).bones = g' f.bones) :
    (heap.modify i g).map UFrame.bones = (heap.map UFrame.bones).modify i g' := by
  apply List.ext_getElem?
  intro j
  rw [List.getElem?_map, List.getElem?_modify, List.getElem?_modify, List.getElem?_map]
  rcases heap[j]? with _ | f
  · rfl
  · by_cases hij : i = j
    · simp [hij, h]
    · simp [hij]

theorem ufeedClean_bones (max : ℤ) (l : List ℕ) : ∀ heap : List (UFrame β),
    feedClean max (heap.map UFrame.bones) l = (((ufeedClean max heap l).1.1.map UFrame.bones, (ufeedClean max heap l).1.2), (ufeedClean max heap l).2) := by
  induction l with
  | nil => intro heap; rfl
  | cons a l ih =>
    intro heap
    rcases l with _ | ⟨b, rest⟩
    · rfl
    · unfold feedClean ufeedClean
      split_ifs with h
      · dsimp only
        rw [← ih, ← map_modify_bones heap b (fun f => { f with prev := none }) _ (fun f => rfl), ← map_modify_bones _ a (fun f => { f with next := none }) _ (fun f => rfl)]
      · rfl

theorem ulinkNext_bones (heap : List (UFrame β)) (cur : Option ℕ) (id : ℕ) :
    (ulinkNext heap cur id).map UFrame.bones = linkNext (heap.map UFrame.bones) cur id := by
  unfold ulinkNext linkNext
  rcases cur with _ | i
  · rfl
  · exact map_modify_bones heap i _ _ (fun f => rfl)

theorem current_bones (fs : UFrameSet β) : fs.bones.current = fs.current.map (fun p => (p.1, p.2.bones)) := by
  unfold FrameSet.current UFrameSet.current
  show (match fs.frames.getLast? with | none => none | some i => ((fs.heap.map UFrame.bones)[i]?).map (fun f => (i, f))) = _
  rcases fs.frames.getLast? with _ | i
  · rfl
  · dsimp only
    rw [List.getElem?_map, Option.map_map, Option.map_map]; rfl

/-- Value constructors of the frame set do not raise for new frames. -/
def Constructs (M : Methods β) (fs : UFrameSet β) : Prop :=
  ∀ heap id t mo ps pe pr, (ufeedInds M heap id t mo fs.indicators (UFrame.fresh t ps pe pr)).2 = none

theorem feedCreate_indicators (M : Methods β) (fs : UFrameSet β) (c : Ctx) (t : Tick) (ps : ℤ) (pe : Option ℤ) :
    (fs.feedCreate M c t ps pe).1 = { fs with heap := (fs.feedCreate M c t ps pe).1.heap, frames := (fs.feedCreate M c t ps pe).1.frames } := by
  unfold UFrameSet.feedCreate
  dsimp only
  split <;> rfl

theorem feedCreate_bones (M : Methods β) (fs : UFrameSet β) (c : Ctx) (t : Tick) (ps : ℤ) (pe : Option ℤ)
    (h : Constructs M fs ∨ (fs.feedCreate M c t ps pe).2 = none) :
    fs.bones.feedCreate c t ps pe = ((fs.feedCreate M c t ps pe).1.bones, (fs.feedCreate M c t ps pe).2) := by
  have hb := ufeedInds_bones M fs.heap fs.heap.length t c.marketOpen fs.indicators (UFrame.fresh t ps pe fs.frames.getLast?)
  have hc := fun H : Constructs M fs => H fs.heap fs.heap.length t c.marketOpen ps pe fs.frames.getLast?
  unfold UFrameSet.feedCreate at h ⊢
  dsimp only at h ⊢
  rcases hx : ufeedInds M fs.heap fs.heap.length t c.marketOpen fs.indicators (UFrame.fresh t ps pe fs.frames.getLast?) with ⟨f, _ | e⟩
  · rw [hx] at hb
    unfold FrameSet.feedCreate
    have hu : upsert fs.bones.heap fs.bones.heap.length t c.marketOpen fs.bones.indicators (Frame.fresh t ps pe fs.bones.frames.getLast?) =
        .ok f.bones := by
      rw [hb]; rfl
    dsimp only
    rw [hu]
    dsimp only
    have hl : linkNext fs.bones.heap fs.bones.frames.getLast? fs.bones.heap.length ++ [f.bones] =
        (ulinkNext fs.heap fs.frames.getLast? fs.heap.length ++ [f]).map UFrame.bones := by
      rw [List.map_append, ulinkNext_bones]
      show linkNext _ _ (fs.heap.map UFrame.bones).length ++ _ = _
      rw [List.length_map]; rfl
    have hi : fs.bones.frames ++ [fs.bones.heap.length] = fs.frames ++ [fs.heap.length] := by
      show fs.frames ++ [(fs.heap.map UFrame.bones).length] = _
      rw [List.length_map]
    rw [hl, hi, show fs.bones.maxFrames = fs.maxFrames from rfl, ufeedClean_bones]
    rfl
  · exfalso
    rw [hx] at h hc
    rcases h with h | h
    · cases hc h
    · cases h

theorem ufeedFill_bones (M : Methods β) (c : Ctx) (ps : ℤ) (fuel : ℕ) : ∀ fs : UFrameSet β, Constructs M fs ∨ (ufeedFill M c ps fuel fs).2 = none →
    feedFill c ps fuel fs.bones = ((ufeedFill M c ps fuel fs).1.bones, (ufeedFill M c ps fuel fs).2) := by
  induction fuel with
  | zero =>
    intro fs _
    unfold feedFill ufeedFill
    rw [current_bones]
    rcases fs.current with _ | ⟨i, f⟩
    · rfl
    · dsimp only [Option.map]
      rw [show f.bones.periodEnd = f.periodEnd from rfl]
      rcases f.periodEnd with _ | pe
      · rfl
      · dsimp only
        split_ifs <;> rfl
  | succ fuel ih =>
    intro fs h
    unfold ufeedFill at h
    unfold feedFill ufeedFill
    rw [current_bones]
    rcases hcu : fs.current with _ | ⟨i, f⟩
    · rfl
    · rw [hcu] at h
      dsimp only [Option.map] at h ⊢
      rw [show f.bones.periodEnd = f.periodEnd from rfl]
      rcases hpe : f.periodEnd with _ | pe
      · rfl
      · rw [hpe] at h
        dsimp only at h ⊢
        split_ifs with hlt
        · rw [if_pos hlt] at h
          rw [show fs.bones.unit = fs.unit from rfl, show fs.bones.qty = fs.qty from rfl, show f.bones.last = f.last from rfl]
          have hi := feedCreate_indicators M fs c f.last pe (some (frameEnd c.zone fs.unit fs.qty pe))
          have hb := feedCreate_bones M fs c f.last pe (some (frameEnd c.zone fs.unit fs.qty pe)) (h.imp id (fun h => by
            rcases hx : fs.feedCreate M c f.last pe (some (frameEnd c.zone fs.unit fs.qty pe)) with ⟨fs', _ | e⟩
            · rfl
            · rw [hx] at h; cases h))
          rw [hb]
          rcases hx : fs.feedCreate M c f.last pe (some (frameEnd c.zone fs.unit fs.qty pe)) with ⟨fs', _ | e⟩
          · rw [hx] at h hi
            dsimp only at h hi ⊢
            refine ih fs' (h.imp (fun h => ?_) id)
            rw [hi]; exact h
          · rfl
        · rfl

theorem ufillFuel_bones (fs : UFrameSet β) (ps : ℤ) : fillFuel fs.bones ps = ufillFuel fs ps := by
  unfold fillFuel ufillFuel
  rw [current_bones]
  rcases fs.current with _ | ⟨i, f⟩ <;> rfl

theorem ufeedFill_indicators (M : Methods β) (c : Ctx) (ps : ℤ) (fuel : ℕ) : ∀ fs : UFrameSet β,
    (ufeedFill M c ps fuel fs).1 = { fs with heap := (ufeedFill M c ps fuel fs).1.heap, frames := (ufeedFill M c ps fuel fs).1.frames } := by
  induction fuel with
  | zero =>
    intro fs
    unfold ufeedFill
    rcases fs.current with _ | ⟨i, f⟩
    · rfl
    · dsimp only
      rcases f.periodEnd with _ | pe
      · rfl
      · dsimp only
        split_ifs <;> rfl
  | succ fuel ih =>
    intro fs
    unfold ufeedFill
    rcases fs.current with _ | ⟨i, f⟩
    · rfl
    · dsimp only
      rcases f.periodEnd with _ | pe
      · rfl
      · dsimp only
        split_ifs
        · have h := feedCreate_indicators M fs c f.last pe (some (frameEnd c.zone fs.unit fs.qty pe))
          rcases hx : fs.feedCreate M c f.last pe (some (frameEnd c.zone fs.unit fs.qty pe)) with ⟨fs', _ | e⟩
          · rw [hx] at h
            dsimp only at h ⊢
            rw [ih fs', h]
          · rw [hx] at h; exact h
        · rfl

theorem feedTimed_bones (M : Methods β) (fs : UFrameSet β) (c : Ctx) (t : Tick) (h : Constructs M fs ∨ (fs.feedTimed M c t).2 = none) :
    fs.bones.feedTimed c t = ((fs.feedTimed M c t).1.bones, (fs.feedTimed M c t).2) := by
  unfold UFrameSet.feedTimed at h
  unfold FrameSet.feedTimed UFrameSet.feedTimed
  rw [show fs.bones.unit = fs.unit from rfl, show fs.bones.qty = fs.qty from rfl]
  rcases hps : frameStart fs.unit fs.qty t.dt.wall with e | ps
  · rfl
  · rw [hps] at h
    dsimp only at h ⊢
    rw [ufillFuel_bones]
    have hi := ufeedFill_indicators M c ps (ufillFuel fs ps) fs
    rw [ufeedFill_bones M c ps _ fs (h.imp id (fun h => by
      rcases hx : ufeedFill M c ps (ufillFuel fs ps) fs with ⟨fs', _ | e⟩
      · rfl
      · rw [hx] at h; cases h))]
    rcases hx : ufeedFill M c ps (ufillFuel fs ps) fs with ⟨fs', _ | e⟩
    · rw [hx] at h hi
      dsimp only at h hi ⊢
      refine feedCreate_bones M fs' c t ps _ (h.imp (fun h => ?_) id)
      rw [hi]; exact h
    · rfl

theorem feedLast_bones (M : Methods β) (fs : UFrameSet β) (c : Ctx) (t : Tick) :
    fs.bones.feedLast c t = ((fs.feedLast M c t).1.bones, none) := by
  unfold FrameSet.feedLast UFrameSet.feedLast
  rw [current_bones]
  rcases fs.current with _ | ⟨i, f⟩
  · rfl
  · dsimp only [Option.map]
    have hb := ufeedInds_bones M fs.heap i t c.marketOpen fs.indicators (f.track t)
    unfold UFrameSet.bones
    dsimp only
    rw [List.map_set, hb, track_bones]
    rfl

theorem overTick_bones (fs : UFrameSet β) (c : Ctx) (t : Tick) : fs.bones.overTick c t = fs.overTick c t := by
  unfold FrameSet.overTick UFrameSet.overTick
  rw [current_bones]
  rcases fs.current with _ | ⟨i, f⟩ <;> rfl

theorem overTimed_bones (fs : UFrameSet β) (t : Tick) : fs.bones.overTimed t = fs.overTimed t := by
  unfold FrameSet.overTimed UFrameSet.overTimed
  rw [current_bones]
  rcases fs.current with _ | ⟨i, f⟩ <;> rfl

/-- The frames do not depend on the indicators, unless a constructor raises. -/
theorem feed_bones (M : Methods β) (fs : UFrameSet β) (c : Ctx) (t : Tick) (h : Constructs M fs ∨ (fs.feed M c t).2 = none) :
    (fs.bones.feed c t).1 = (fs.feed M c t).1.bones ∧ ((fs.bones.feed c t).2 = none ∨ (fs.bones.feed c t).2 = (fs.feed M c t).2) := by
  unfold UFrameSet.feed at h
  unfold FrameSet.feed UFrameSet.feed
  rw [show fs.bones.unit = fs.unit from rfl, overTick_bones, overTimed_bones]
  split_ifs with h1 h2
  · rw [if_pos h1, if_pos h2] at h
    rw [feedCreate_bones M fs c t _ _ h]; exact ⟨rfl, .inr rfl⟩
  · rw [feedLast_bones M fs c t]; exact ⟨rfl, .inl rfl⟩
  · rw [if_neg h1] at h
    rcases ho : fs.overTimed t with e | b
    · exact ⟨rfl, .inr rfl⟩
    · rw [ho] at h
      dsimp only at h ⊢
      split_ifs with h3
      · rw [if_pos h3] at h
        rw [feedTimed_bones M fs c t h]; exact ⟨rfl, .inr rfl⟩
      · rw [feedLast_bones M fs c t]; exact ⟨rfl, .inl rfl⟩

/-! ## Registrations -/

/-- References are the keys, keys are distinct. -/
def URegOk (d : Dict (UInd β)) : Prop := d.keys.Nodup ∧ ∀ k ind, d.get? k = some ind → ind.ref = k

theorem URegOk.set {d : Dict (UInd β)} (h : URegOk d) (ind : UInd β) : URegOk (d.set ind.ref ind) := by
  refine ⟨Dict.keys_set_nodup _ _ _ h.1, fun k i hk => ?_⟩
  rw [Dict.get?_set] at hk
  split_ifs at hk with he
  · cases hk; exact he
  · exact h.2 k i hk

theorem feed_indicators (M : Methods β) (fs : UFrameSet β) (c : Ctx) (t : Tick) :
    (fs.feed M c t).1 = { fs with heap := (fs.feed M c t).1.heap, frames := (fs.feed M c t).1.frames } := by
  have hL : (fs.feedLast M c t).1 = { fs with heap := (fs.feedLast M c t).1.heap, frames := (fs.feedLast M c t).1.frames } := by
    unfold UFrameSet.feedLast
    rcases fs.current with _ | ⟨i, f⟩ <;> rfl
  have hT : (fs.feedTimed M c t).1 = { fs with heap := (fs.feedTimed M c t).1.heap, frames := (fs.feedTimed M c t).1.frames } := by
    unfold UFrameSet.feedTimed
    rcases frameStart fs.unit fs.qty t.dt.wall with e | ps
    · rfl
    · dsimp only
      have h := ufeedFill_indicators M c ps (ufillFuel fs ps) fs
      rcases hx : ufeedFill M c ps (ufillFuel fs ps) fs with ⟨fs', _ | e⟩
      · rw [hx] at h
        dsimp only at h ⊢
        rw [feedCreate_indicators, h]
      · rw [hx] at h; exact h
  unfold UFrameSet.feed
  split_ifs
  · exact feedCreate_indicators _ _ _ _ _ _
  · exact hL
  · rcases fs.overTimed t with e | b
    · rfl
    · dsimp only
      split_ifs
      · exact hT
      · exact hL

theorem UFrame.get_set (f : UFrame β) (k r : String) (o : Option β) :
    ({ f with vals := f.vals.set k o } : UFrame β).get r = if r = k then o else f.get r := by
  unfold UFrame.get
  rw [Dict.get?_set]
  by_cases h : k = r
  · rw [if_pos h, if_pos h.symm]; rfl
  · rw [if_neg h, if_neg (Ne.symm h)]

/-- Values of new frames are built, not updated. -/
theorem ufeedOne_get_other (M : Methods β) (heap : List (UFrame β)) (id : ℕ) (t : Tick) (mo : Bool) (f : UFrame β) (p : String × UInd β)
    (hp : p.2.ref = p.1) (r : String) (hr : r ≠ p.1) : (ufeedOne M heap id t mo f p).1.get r = f.get r := by
  have hb : (match p.2.build heap id f mo with
      | .ok nv => (({ f with vals := f.vals.set p.2.ref nv } : UFrame β), (none : Option PyErr))
      | .error e => (f, some e)).1.get r = f.get r := by
    split
    · rw [UFrame.get_set, hp, if_neg hr]
    · rfl
  unfold ufeedOne
  dsimp only
  split
  · split_ifs
    · rw [UFrame.get_set, if_neg hr]
    · exact hb
  · exact hb

theorem ufeedInds_get_other (M : Methods β) (heap : List (UFrame β)) (id : ℕ) (t : Tick) (mo : Bool) (r : String) (inds : Dict (UInd β)) :
    ∀ f : UFrame β, (∀ p ∈ inds, p.2.ref = p.1 ∧ r ≠ p.1) → (ufeedInds M heap id t mo inds f).1.get r = f.get r := by
  induction inds with
  | nil => intro f _; rfl
  | cons p rest ih =>
    intro f h
    have h1 := ufeedOne_get_other M heap id t mo f p (h p (by simp)).1 r (h p (by simp)).2
    unfold ufeedInds
    rcases hx : ufeedOne M heap id t mo f p with ⟨f', _ | e⟩ <;> rw [hx] at h1
    · dsimp only; rw [ih f' (fun q hq => h q (by simp [hq]))]; exact h1
    · exact h1

theorem URegOk.pairs {d : Dict (UInd β)} (h : URegOk d) : ∀ p ∈ d, p.2.ref = p.1 :=
  fun p hp => h.2 p.1 p.2 (Dict.get?_of_mem h.1 hp)

/-- Constructors that never raise do not raise for new frames. -/
theorem constructs_of_build (M : Methods β) (fs : UFrameSet β) (hr : URegOk fs.indicators)
    (hb : ∀ p ∈ fs.indicators, ∀ heap id f mo e, p.2.build heap id f mo ≠ .error e) : Constructs M fs := by
  intro heap id t mo ps pe pr
  have key : ∀ (inds : Dict (UInd β)) (f : UFrame β), URegOk inds → (∀ p ∈ inds, ∀ heap id f mo e, p.2.build heap id f mo ≠ .error e) →
      (∀ p ∈ inds, f.get p.1 = none) → (ufeedInds M heap id t mo inds f).2 = none := by
    intro inds
    induction inds with
    | nil => intro f _ _ _; rfl
    | cons p rest ih =>
      intro f h1 h2 h3
      have hone : (ufeedOne M heap id t mo f p).2 = none := by
        unfold ufeedOne
        rw [h3 p (by simp)]
        dsimp only
        rcases hx : p.2.build heap id f mo with e | nv
        · exact absurd hx (h2 p (by simp) _ _ _ _ e)
        · rfl
      have hnd : p.1 ∉ Dict.keys rest ∧ (Dict.keys rest).Nodup := by
        have := h1.1
        unfold Dict.keys at this
        rw [List.map_cons, List.nodup_cons] at this
        exact this
      unfold ufeedInds
      rcases hx : ufeedOne M heap id t mo f p with ⟨f', _ | e⟩
      · dsimp only
        refine ih f' ⟨hnd.2, fun k i hk => h1.pairs (k, i) (List.mem_cons_of_mem _ (Dict.mem_of_get? hk))⟩ (fun q hq => h2 q (by simp [hq])) ?_
        intro q hq
        have h4 := ufeedOne_get_other M heap id t mo f p (h1.pairs p (by simp)) q.1 (by
          rintro he
          exact hnd.1 (he ▸ List.mem_map.mpr ⟨q, hq, rfl⟩))
        rw [hx] at h4
        rw [h4]; exact h3 q (by simp [hq])
      · rw [hx] at hone; cases hone
  exact key fs.indicators _ hr hb (fun p _ => rfl)

end

end Estrade
