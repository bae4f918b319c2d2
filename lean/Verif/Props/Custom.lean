import Verif.Lemmas.UserValues
import Verif.Lemmas.CustomLift
import Verif.Props.Frames
import Verif.Props.Indicators

/-!
# Indicators written by users
-/

set_option linter.style.haveILetI false
set_option linter.unusedSectionVars false
set_option autoImplicit false

namespace Estrade

/-- Spec: the ticks of a run. -/
def Spec.ticksOf {β : Type} : List (UCmd β) → List (Ctx × Tick)
  | [] => []
  | .add _ :: l => Spec.ticksOf l
  | .tick c t :: l => (c, t) :: Spec.ticksOf l

/-- Spec: the indicators registered in a run. -/
def Spec.added {β : Type} : List (UCmd β) → List (UInd β)
  | [] => []
  | .add ind :: l => ind :: Spec.added l
  | .tick _ _ :: l => Spec.added l

/-- Spec: what a frame shows apart from its values. -/
structure Spec.Looks {β : Type} (f : UFrame β) (g : Frame) : Prop where
  start : f.periodStart = g.periodStart
  stop : f.periodEnd = g.periodEnd
  prev : f.prev = g.prev
  next : f.next = g.next
  count : f.nbTicks = g.nbTicks
  first : f.first = g.first
  high : f.high = g.high
  low : f.low = g.low
  last : f.last = g.last

/-- Spec: the two frame sets have the same frames. -/
def Spec.SameFrames {β : Type} (fs : UFrameSet β) (gs : FrameSet) : Prop :=
  fs.frames = gs.frames ∧ List.Forall₂ Spec.Looks fs.heap gs.heap

theorem sameFrames_bones {β : Type} (fs : UFrameSet β) : Spec.SameFrames fs fs.bones := by
  refine ⟨rfl, ?_⟩
  show List.Forall₂ _ fs.heap (fs.heap.map UFrame.bones)
  rw [List.forall₂_map_right_iff, List.forall₂_same]
  exact fun f _ => ⟨rfl, rfl, rfl, rfl, rfl, rfl, rfl, rfl, rfl⟩

section
variable [Arith] {β : Type}

/-! ## The frames -/

/-- C93: the frame sets of the library are the instance of the general ones in which the value classes are those of the library:
every tick has the same effect and raises the same exception. -/
theorem C93_instance (fs : FrameSet) (c : Ctx) (t : Tick) :
    fs.lift.feed Methods.library c t = ((fs.feed c t).1.lift, (fs.feed c t).2) :=
  feed_lift fs c t

theorem run_bones (M : Methods β) (l : List (UCmd β)) : ∀ fs : UFrameSet β, URegOk fs.indicators →
    (∀ p ∈ fs.indicators, ∀ heap id f mo e, p.2.build heap id f mo ≠ .error e) →
    (∀ ind ∈ Spec.added l, ∀ heap id f mo e, ind.build heap id f mo ≠ .error e) →
    (fs.run M l).bones = (Spec.ticksOf l).foldl (fun gs p => (gs.feed p.1 p.2).1) fs.bones := by
  induction l with
  | nil => intro fs _ _ _; rfl
  | cons cmd l ih =>
    intro fs hr hb ha
    rcases cmd with ind | ⟨c, t⟩
    · refine (ih (fs.addIndicator ind) (hr.set ind) ?_ (fun i hi => ha i (List.mem_cons_of_mem _ hi))).trans rfl
      intro p hp
      have hr' := hr.set ind
      have hg := Dict.get?_of_mem hr'.1 hp
      rw [Dict.get?_set] at hg
      split_ifs at hg with hk
      · cases hg
        exact ha p.2 (List.mem_cons_self ..)
      · exact hb (p.1, p.2) (Dict.mem_of_get? hg)
    · have h1 := (feed_bones M fs c t (.inl (constructs_of_build M fs hr hb))).1
      have h2 := feed_indicators M fs c t
      refine (ih (fs.feed M c t).1 ?_ ?_ ha).trans ?_
      · rw [h2]; exact hr
      · rw [h2]; exact hb
      · show List.foldl _ (fs.feed M c t).1.bones _ = List.foldl _ (fs.bones.feed c t).1 _
        rw [h1]

/-- C93: whatever the values do and whatever their `on_new_tick` raises, in any run with registrations at any moment, the frames
are those of a frame set without indicators given the same ticks, provided no constructor raises. -/
theorem C93_frames (M : Methods β) (u : Unit') (q m : ℤ) (l : List (UCmd β))
    (hb : ∀ ind ∈ Spec.added l, ∀ heap id f mo e, ind.build heap id f mo ≠ .error e) :
    Spec.SameFrames (UFrameSet.run M ⟨u, q, m, [], [], []⟩ l)
      ((Spec.ticksOf l).foldl (fun gs p => (gs.feed p.1 p.2).1) ⟨u, q, m, [], [], []⟩) := by
  have h := run_bones M l ⟨u, q, m, [], [], []⟩ ⟨by simp [Dict.keys], fun k i hk => by cases hk⟩ (fun p hp => by cases hp) hb
  rw [show (⟨u, q, m, [], [], []⟩ : FrameSet) = UFrameSet.bones (⟨u, q, m, [], [], []⟩ : UFrameSet β) from rfl, ← h]
  exact sameFrames_bones _

/-- C93: constructors that raise included, the frames are those of a frame set without indicators as long as no exception is
raised. -/
theorem C93_frames_without_exceptions (M : Methods β) (u : Unit') (q m : ℤ) (fs : UFrameSet β) (h : List (UHEv β))
    (hF : UFeeds M u q m fs h) : ∃ gs, Feeds u q m gs (h.map UHEv.plain) ∧ Spec.SameFrames fs gs :=
  ⟨fs.bones, hF.feeds, sameFrames_bones fs⟩

/-- C93: the frames do depend on constructors that raise: after the registration of an indicator whose constructor always raises, no
frame is ever made (unless its reference is given to another one). -/
theorem C93_no_frames (M : Methods β) (u : Unit') (q m : ℤ) (l : List (UCmd β)) (ind : UInd β)
    (hb : ∀ heap id f mo, ∃ e, ind.build heap id f mo = .error e) (hr : ∀ i ∈ Spec.added l, i.ref ≠ ind.ref) :
    (UFrameSet.run M ⟨u, q, m, [], [], []⟩ (.add ind :: l)).heap = [] := by
  have key : ∀ (l : List (UCmd β)) (fs : UFrameSet β), (∀ i ∈ Spec.added l, i.ref ≠ ind.ref) → URegOk fs.indicators →
      fs.indicators.get? ind.ref = some ind → fs.heap = [] → fs.frames = [] → (fs.run M l).heap = [] := by
    intro l
    induction l with
    | nil => intro fs _ _ _ h _; exact h
    | cons cmd l ih =>
      intro fs hr hok hg hh hf
      rcases cmd with i | ⟨c, t⟩
      · refine ih (fs.addIndicator i) (fun k hk => hr k (List.mem_cons_of_mem _ hk)) (hok.set i) ?_ hh hf
        show (fs.indicators.set i.ref i).get? ind.ref = _
        rw [Dict.get?_set, if_neg (hr i (List.mem_cons_self ..))]
        exact hg
      · have hcr : ∀ ps pe, (fs.feedCreate M c t ps pe).1 = fs := by
          intro ps pe
          have hne : (ufeedInds M fs.heap fs.heap.length t c.marketOpen fs.indicators (UFrame.fresh t ps pe fs.frames.getLast?)).2 ≠ none := by
            intro hn
            obtain ⟨f0, -, b2, b3, -⟩ := ufeedInds_get M _ _ t c.marketOpen ind.ref ind fs.indicators _ hok hg hn
            unfold ufeedOne at b3
            rw [b2] at b3
            dsimp only at b3
            obtain ⟨e, he⟩ := hb fs.heap fs.heap.length f0 c.marketOpen
            rw [show (UFrame.fresh t ps pe fs.frames.getLast? : UFrame β).get ind.ref = none from rfl, he] at b3
            cases b3
          unfold UFrameSet.feedCreate
          dsimp only
          rcases hx : ufeedInds M fs.heap fs.heap.length t c.marketOpen fs.indicators (UFrame.fresh t ps pe fs.frames.getLast?) with ⟨f, _ | e⟩
          · rw [hx] at hne; exact absurd rfl hne
          · rfl
        have hcu : fs.current = none := by
          unfold UFrameSet.current
          rw [hf]; rfl
        have hfd : (fs.feed M c t).1 = fs := by
          unfold UFrameSet.feed
          split_ifs with h1 h2
          · exact hcr _ _
          · exfalso
            unfold UFrameSet.overTick at h2
            rw [hcu] at h2
            exact h2 rfl
          · have ho : fs.overTimed t = .ok true := by unfold UFrameSet.overTimed; rw [hcu]
            rw [ho]
            dsimp only
            rw [if_pos rfl]
            unfold UFrameSet.feedTimed
            rcases frameStart fs.unit fs.qty t.dt.wall with e | ps
            · rfl
            · dsimp only
              have hfill : ufeedFill M c ps (ufillFuel fs ps) fs = (fs, none) := by
                unfold ufeedFill
                rw [hcu]
              rw [hfill]
              exact hcr _ _
        show ((fs.feed M c t).1.run M l).heap = []
        rw [hfd]
        exact ih fs hr hok hg hh hf
  have h0 : URegOk ([] : Dict (UInd β)) := ⟨by simp [Dict.keys], fun k i hk => by cases hk⟩
  exact key l _ hr (h0.set ind) (by
    show (Dict.set [] ind.ref ind).get? ind.ref = _
    rw [Dict.get?_set, if_pos rfl]) rfl rfl

/-! ## The values -/

/-- Spec: the values of the indicator under `r` look at nothing but the ticks they are given: their states satisfy `C`, the
constructor reads the last tick of the frame and is called when `market_open_only` allows it, `on_new_tick` does not raise. -/
structure Spec.OwnTicks (M : Methods β) (r : String) (ind : UInd β) (only : Bool) (init : Tick → β) (step : β → Tick → Bool → β)
    (C : β → Prop) : Prop where
  build : ∀ heap id f mo, ind.build heap id f mo = .ok (if !only || mo then some (init f.last) else none)
  ref : ind.ref = r
  start : ∀ t, C (init t)
  keep : ∀ v t mo, C v → C (step v t mo)
  tick : ∀ heap f v t mo, C v → M.onNewTick heap f v t mo = (step v t mo, none)

/-- C93: so are the values of every class derived from `BaseIndicatorValue` whose methods do so, `build_value_from_frame` being that of
`BaseIndicator`. -/
theorem C93_class (M : Methods β) (r : String) (only : Bool) (init : Tick → β) (step : β → Tick → Bool → β) (C : β → Prop)
    (hs : ∀ t, C (init t)) (hk : ∀ v t mo, C v → C (step v t mo))
    (ht : ∀ heap f v t mo, C v → M.onNewTick heap f v t mo = (step v t mo, none)) :
    Spec.OwnTicks M r (UInd.ofClass r only (fun _ _ f => .ok (init f.last))) only init step C where
  build heap id f mo := by
    unfold UInd.ofClass
    dsimp only
    split_ifs <;> rfl
  ref := rfl
  start := hs
  keep := hk
  tick := ht

/-- Spec: the value after these deliveries (tick, market open). -/
def Spec.valueOver (only : Bool) (init : Tick → β) (step : β → Tick → Bool → β) : List (Tick × Bool) → Option β
  | [] => none
  | e :: l => if !only || e.2 then some (l.foldl (fun v e => step v e.1 e.2) (init e.1)) else Spec.valueOver only init step l

theorem foldl_some (only : Bool) (init : Tick → β) (step : β → Tick → Bool → β) (l : List (Tick × Bool)) : ∀ v : β,
    l.foldl (localStep only init step) (some v) = some (l.foldl (fun v e => step v e.1 e.2) v) := by
  induction l with
  | nil => intro v; rfl
  | cons e l ih => intro v; exact ih _

theorem foldl_none (only : Bool) (init : Tick → β) (step : β → Tick → Bool → β) (l : List (Tick × Bool)) :
    l.foldl (localStep only init step) none = Spec.valueOver only init step l := by
  induction l with
  | nil => rfl
  | cons e l ih =>
    unfold Spec.valueOver
    rw [List.foldl_cons]
    cases hm : (!only || e.2)
    · rw [show localStep only init step none e = none by unfold localStep; dsimp only; rw [hm]; rfl, ih]; rfl
    · rw [show localStep only init step none e = some (init e.1) by unfold localStep; dsimp only; rw [hm]; rfl, foldl_some]; rfl

theorem Spec.OwnTicks.cls {M : Methods β} {r : String} {ind : UInd β} {only : Bool} {init : Tick → β} {step : β → Tick → Bool → β}
    {C : β → Prop} (h : Spec.OwnTicks M r ind only init step C) (ht : ∀ v, C v → M.truth v = true) :
    LocalClass M r ind only init step C :=
  ⟨h.build, h.ref, h.start, h.keep, h.tick, ht⟩

/-- Spec: the frames in memory. -/
def UFrameSet.view (fs : UFrameSet β) : List (UFrame β) := fs.frames.filterMap (fun i => fs.heap[i]?)

/-- Spec: tick and state of the market. -/
def UHEv.given (x : UHEv β) : Tick × Bool := (x.tick, x.ctx.marketOpen)

theorem UHEv.marked_wall (r : String) (ind : UInd β) (x : UHEv β) : (x.marked r ind).wall = x.tick.dt.wall := rfl

/-- Spec: the deliveries of the period `[s, e)`. -/
def Spec.during (h : List (UHEv β)) (s e : ℤ) : List (UHEv β) :=
  h.filter (fun x => decide (s ≤ x.tick.dt.wall) && decide (x.tick.dt.wall < e))

/-- Spec: the value of a frame of the period `[s, e)` is made from the ticks of the period, starting with the first one the indicator
may see; if the period has none, from the last tick before it, seen in the state of the market at the next tick. -/
def Spec.MadeFrom (h : List (UHEv β)) (only : Bool) (init : Tick → β) (step : β → Tick → Bool → β) (s e : ℤ) (o : Option β) : Prop :=
  (Spec.during h s e ≠ [] → o = Spec.valueOver only init step ((Spec.during h s e).map UHEv.given)) ∧
  (Spec.during h s e = [] → ∃ p n, (h.filter (fun x => decide (x.tick.dt.wall < s))).getLast? = some p ∧
    (h.filter (fun x => decide (e ≤ x.tick.dt.wall))).head? = some n ∧ o = Spec.valueOver only init step [(p.tick, n.ctx.marketOpen)])

/-- C93 as one would like it: the value of a timed frame under `r` is made from the ticks of its period. -/
def Spec.C93 (β : Type) : Prop := ∀ (M : Methods β) (u : Unit') (q m : ℤ) (fs : UFrameSet β) (h : List (UHEv β)) (r : String) (ind : UInd β)
    (only : Bool) (init : Tick → β) (step : β → Tick → Bool → β) (C : β → Prop), Spec.Accepted u q → 1 ≤ m → UFeeds M u q m fs h →
    Spec.InOrder (h.map UHEv.plain) → Spec.NoneSkipped u q (h.map UHEv.plain) → Spec.OwnTicks M r ind only init step C →
    ∀ f ∈ fs.view, ∃ s e, f.periodStart = s ∧ f.periodEnd = some e ∧
      ((∀ x ∈ h, s ≤ x.tick.dt.wall → x.reg.get? r = some ind) → Spec.MadeFrom h only init step s e (f.get r))

/-- C93: the full statement, for values that are truthy. -/
theorem C93_values_partial (M : Methods β) (u : Unit') (q m : ℤ) (fs : UFrameSet β) (h : List (UHEv β)) (r : String) (ind : UInd β)
    (only : Bool) (init : Tick → β) (step : β → Tick → Bool → β) (C : β → Prop) (ha : Spec.Accepted u q) (hm : 1 ≤ m)
    (hF : UFeeds M u q m fs h) (ho : Spec.InOrder (h.map UHEv.plain)) (hz : Spec.NoneSkipped u q (h.map UHEv.plain))
    (hc : Spec.OwnTicks M r ind only init step C) (ht : ∀ v, C v → M.truth v = true) (f : UFrame β) (hf : f ∈ fs.view) :
    ∃ s e, f.periodStart = s ∧ f.periodEnd = some e ∧
      ((∀ x ∈ h, s ≤ x.tick.dt.wall → x.reg.get? r = some ind) → Spec.MadeFrom h only init step s e (f.get r)) := by
  have hT := accepted_tiles ha
  obtain ⟨k, -, hk⟩ := List.mem_filterMap.mp hf
  have hP : Sorted (h.map UHEv.plain) ∧ GridKept u q (h.map UHEv.plain) := ⟨ho, keeps_of_noneSkipped hT hz⟩
  have hG := timed_grouping (m := m) hT hm
  have hP' := hG.blind _ (h.map (UHEv.marked r ind)) (by rw [List.map_map, List.map_map]; rfl) hP
  have hR := (hG.built _ _ hF.feeds hP).rep hm
  have hkb : fs.bones.heap[k]? = some f.bones := by
    show (fs.heap.map UFrame.bones)[k]? = _
    rw [List.getElem?_map, hk]; rfl
  have hlt : k < (timedAF u q (h.map UHEv.plain)).length := by
    rw [← hR.len]; exact (List.getElem?_eq_some_iff.mp hkb).1
  have hne : h ≠ [] := by rintro rfl; simp [timedAF] at hlt
  have hlen : (timedAF u q (h.map (UHEv.marked r ind))).length = (timedAF u q (h.map UHEv.plain)).length := by
    rw [← marked_plain r ind, hG.unmark, List.length_map]
  have hA := List.getElem?_eq_getElem (l := timedAF u q (h.map (UHEv.marked r ind))) (i := k) (by rw [hlen]; exact hlt)
  generalize hx : (timedAF u q (h.map (UHEv.marked r ind)))[k]'(by rw [hlen]; exact hlt) = x at hA
  have hval := hF.values hm hG (hc.cls ht) hP' k x f hA hk
  rw [foldl_none] at hval
  have hAp : (timedAF u q (h.map UHEv.plain))[k]? = some { x with evs := x.evs.map (fun e => { e with reg := [] }) } := by
    rw [← marked_plain r ind, hG.unmark, List.getElem?_map, hA]; rfl
  have hcore := hR.core k _ _ hAp hkb
  obtain ⟨a0, ha0⟩ : ∃ a, (h.map (UHEv.marked r ind)).head? = some a := by
    rcases h with _ | ⟨y, h⟩
    · exact absurd rfl hne
    · exact ⟨_, rfl⟩
  obtain ⟨b0, hb0⟩ : ∃ b, (h.map (UHEv.marked r ind)).getLast? = some b := by
    rcases hl : (h.map (UHEv.marked r ind)).getLast? with _ | b
    · simp only [List.getLast?_eq_none_iff, List.map_eq_nil_iff] at hl
      exact absurd hl hne
    · exact ⟨b, rfl⟩
  obtain ⟨s, e, hlt0, rfl⟩ : ∃ s e, s < e ∧ x = periodAF (h.map (UHEv.marked r ind)) s e :=
    ⟨_, _, grid_strictMono hT (lt_add_one _), (timedAF_get ha0 hb0 hA).2⟩
  refine ⟨s, e, hcore.start, hcore.stop, fun hreg => ?_⟩
  have hmk : ∀ y ∈ h, s ≤ y.tick.dt.wall → (y.marked r ind).reg = [] := by
    intro y hy hs
    unfold UHEv.marked
    dsimp only
    rw [if_pos (hreg y hy hs)]
  have hin : inside (h.map (UHEv.marked r ind)) s e = (Spec.during h s e).map (UHEv.marked r ind) := by
    unfold inside
    rw [List.filter_map]; rfl
  have hp1 : (h.map (UHEv.marked r ind)).filter (fun x => decide (x.wall < s)) =
      (h.filter (fun x => decide (x.tick.dt.wall < s))).map (UHEv.marked r ind) := by
    rw [List.filter_map]; rfl
  have hn1 : (h.map (UHEv.marked r ind)).filter (fun x => decide (e ≤ x.wall)) =
      (h.filter (fun x => decide (e ≤ x.tick.dt.wall))).map (UHEv.marked r ind) := by
    rw [List.filter_map]; rfl
  constructor
  · intro hne'
    have he : (periodAF (h.map (UHEv.marked r ind)) s e).evs = ((Spec.during h s e).map (UHEv.marked r ind)).map HEv.ev := by
      unfold periodAF
      rw [hin]
      exact if_neg (by simpa using hne')
    rw [he] at hval
    have := hval (by
      intro y hy
      simp only [List.mem_map, exists_exists_and_eq_and] at hy
      obtain ⟨z, hz, rfl⟩ := hy
      obtain ⟨z1, z2⟩ := List.mem_filter.mp hz
      simp only [Bool.and_eq_true, decide_eq_true_eq] at z2
      exact hmk z z1 z2.1)
    rw [this, List.map_map, List.map_map]
    rfl
  · intro hem
    have hsum := hcore.sum.first
    have he : (periodAF (h.map (UHEv.marked r ind)) s e).evs =
        match (h.filter (fun x => decide (x.tick.dt.wall < s))).getLast?, (h.filter (fun x => decide (e ≤ x.tick.dt.wall))).head? with
        | some p, some n => [⟨p.tick, n.ctx.marketOpen, (n.marked r ind).reg⟩]
        | _, _ => [] := by
      unfold periodAF
      rw [hin, hem, hp1, hn1, List.getLast?_map, List.head?_map]
      dsimp only
      rw [if_pos (show List.map (UHEv.marked r ind) [] = [] from rfl)]
      generalize (h.filter (fun x => decide (x.tick.dt.wall < s))).getLast? = o1
      generalize (h.filter (fun x => decide (e ≤ x.tick.dt.wall))).head? = o2
      rcases o1 with _ | p <;> rcases o2 with _ | n <;> rfl
    dsimp only at hsum
    rcases hp : (h.filter (fun x => decide (x.tick.dt.wall < s))).getLast? with _ | p
    · rw [he, hp] at hsum
      simp at hsum
    rcases hn : (h.filter (fun x => decide (e ≤ x.tick.dt.wall))).head? with _ | n
    · rw [he, hp, hn] at hsum
      simp at hsum
    rw [he, hp, hn] at hval
    have hnm := List.mem_filter.mp (List.mem_of_head? hn)
    have hse : s ≤ n.tick.dt.wall := hlt0.le.trans (of_decide_eq_true hnm.2)
    refine ⟨p, n, by first | rfl | exact hp, by first | rfl | exact hn, hval ?_⟩
    intro y hy
    rw [List.mem_singleton.mp hy]
    exact hmk n hnm.1 hse

/-- C93 for TICK frames of an epic: the value of the `i`-th frame is made from the `i`-th block of `q` ticks. -/
theorem C93_tick_values_partial (M : Methods β) (q m : ℤ) (hq : 1 ≤ q) (hm : 1 ≤ m) (fs : UFrameSet β) (h : List (UHEv β)) (r : String)
    (ind : UInd β) (only : Bool) (init : Tick → β) (step : β → Tick → Bool → β) (C : β → Prop) (hF : UFeeds M .tick q m fs h)
    (ha : Spec.FromEpic (h.map UHEv.plain)) (hc : Spec.OwnTicks M r ind only init step C) (ht : ∀ v, C v → M.truth v = true)
    (i : ℕ) (f : UFrame β) (hf : fs.heap[i]? = some f) (hr : ∀ x ∈ (h.drop (i * q.toNat)).take q.toNat, x.reg.get? r = some ind) :
    f.get r = Spec.valueOver only init step (((h.drop (i * q.toNat)).take q.toNat).map UHEv.given) := by
  have hG := tick_grouping (m := m) hq hm
  have hP' : Attached (h.map (UHEv.marked r ind)) :=
    hG.blind _ (h.map (UHEv.marked r ind)) (by rw [List.map_map, List.map_map]; rfl) ha
  have hR := (hG.built _ _ hF.feeds ha).rep hm
  have hlt : i < (tickAF q.toNat (h.map UHEv.plain)).length := by
    rw [← hR.len]
    show i < (fs.heap.map UFrame.bones).length
    rw [List.length_map]; exact (List.getElem?_eq_some_iff.mp hf).1
  have hlen : (tickAF q.toNat (h.map (UHEv.marked r ind))).length = (tickAF q.toNat (h.map UHEv.plain)).length := by
    rw [← marked_plain r ind, hG.unmark, List.length_map]
  have hA := List.getElem?_eq_getElem (l := tickAF q.toNat (h.map (UHEv.marked r ind))) (i := i) (by rw [hlen]; exact hlt)
  have hval := hF.values hm hG (hc.cls ht) hP' i _ f hA hf
  have he : ((tickAF q.toNat (h.map (UHEv.marked r ind)))[i]'(by rw [hlen]; exact hlt)).evs =
      (((h.drop (i * q.toNat)).take q.toNat).map (UHEv.marked r ind)).map HEv.ev := by
    simp only [tickAF, List.getElem_map, List.getElem_range, blockAF, block, List.map_drop, List.map_take]
  rw [foldl_none, he] at hval
  rw [hval ?_, List.map_map, List.map_map]
  · rfl
  · intro y hy
    simp only [List.mem_map, exists_exists_and_eq_and] at hy
    obtain ⟨z, hz, rfl⟩ := hy
    show (UHEv.marked r ind z).reg = []
    unfold UHEv.marked
    dsimp only
    rw [if_pos (hr z hz)]

end

/-! ## Cases -/

section examples

/-- Delivery of all ticks, up to the first exception. -/
def ufeedAll [Arith] {β : Type} (M : Methods β) (fs : UFrameSet β) : List (Ctx × Tick) → Option (UFrameSet β)
  | [] => some fs
  | p :: rest => match fs.feed M p.1 p.2 with
    | (fs', none) => ufeedAll M fs' rest
    | (_, some _) => none

theorem ufeeds_of_all [Arith] {β : Type} {M : Methods β} {u : Unit'} {q m : ℤ} (l : List (Ctx × Tick)) : ∀ {fs fs' : UFrameSet β}
    {h : List (UHEv β)}, UFeeds M u q m fs h → ufeedAll M fs l = some fs' →
    UFeeds M u q m fs' (h ++ l.map (fun p => ⟨p.1, p.2, fs.indicators⟩)) := by
  induction l with
  | nil => intro fs fs' h hF hs; cases hs; simpa using hF
  | cons p rest ih =>
    intro fs fs' h hF hs
    unfold ufeedAll at hs
    have hi := feed_indicators M fs p.1 p.2
    rcases hx : fs.feed M p.1 p.2 with ⟨fs1, _ | e⟩ <;> rw [hx] at hs hi
    · have h1 := UFeeds.tick p.1 p.2 hF hx
      have h2 := ih h1 hs
      have : fs1.indicators = fs.indicators := by rw [show fs1 = _ from hi]
      rw [this] at h2
      simpa using h2
    · cases hs

/-- A class whose values count the ticks they have been given after the first one with an open market, and are falsy while there is
none if `bool` says so (`__len__`). -/
private def counter (lazy : Bool) : Methods ℕ :=
  ⟨fun _ _ v _ mo => (if mo then v + 1 else v, none), fun v => !lazy || decide (v ≠ 0)⟩

private def counts : UInd ℕ := UInd.ofClass "n" true (fun _ _ _ => .ok 0)

private theorem counts_own [Arith] (lazy : Bool) :
    Spec.OwnTicks (counter lazy) "n" counts true (fun _ => 0) (fun v _ mo => if mo then v + 1 else v) (fun _ => True) :=
  C93_class (counter lazy) "n" true (fun _ => 0) _ _ (fun _ => trivial) (fun _ _ _ _ => trivial) (fun _ _ _ _ _ _ => rfl)

/-- Four ticks of one minute, the market being closed at the first; a minute without ticks; two ticks. -/
private def six : List (Ctx × Tick) :=
  [Demo.at' 0 false 10, Demo.at' 10 true 11, Demo.at' 20 true 12, Demo.at' 30 true 13, Demo.at' 120 true 14, Demo.at' 130 true 15]

private def hist : List (UHEv ℕ) := six.map (fun p => ⟨p.1, p.2, [("n", counts)]⟩)

private theorem hist_order [Arith] : Spec.InOrder (hist.map UHEv.plain) := by
  have : ((hist.map UHEv.plain).map (fun e => e.tick.dt.wall)).Pairwise (· ≤ ·) := by
    rw [show (hist.map UHEv.plain).map (fun e => e.tick.dt.wall) = six.map (fun p => p.2.dt.wall) by
      unfold hist; rw [List.map_map, List.map_map]; rfl]
    decide +kernel
  exact List.pairwise_map.mp this

private theorem hist_zone [Arith] : Spec.NoneSkipped .minute 1 (hist.map UHEv.plain) := by
  intro e he _ _ n _ _ _
  have : e.ctx.zone = Zone.utc := by
    simp only [hist, six, List.map_cons, List.map_nil, List.mem_cons, List.not_mem_nil, or_false] at he
    rcases he with rfl | rfl | rfl | rfl | rfl | rfl <;> rfl
  rw [this]; rfl

private theorem hist_reg [Arith] (x : UHEv ℕ) (hx : x ∈ hist) : x.reg.get? "n" = some counts := by
  obtain ⟨p, -, rfl⟩ := List.mem_map.mp hx
  rfl

/-- The frame set after the ticks, if nothing raises. -/
private def after [Arith] (lazy : Bool) : Option (UFrameSet ℕ) :=
  ufeedAll (counter lazy) (UFrameSet.addIndicator ⟨.minute, 1, 5, [], [], []⟩ counts) six

private theorem after_feeds [Arith] {lazy : Bool} {fs : UFrameSet ℕ} (h : after lazy = some fs) :
    UFeeds (counter lazy) .minute 1 5 fs hist := by
  have := ufeeds_of_all six (UFeeds.ind counts (UFeeds.new (M := counter lazy) (u := .minute) (q := 1) (m := 5))) h
  rw [List.nil_append] at this
  exact this

private def seen (o : Option (UFrameSet ℕ)) : Option (List (ℕ × Option ℕ)) :=
  o.map (fun fs => (fs.frames.filterMap (fun i => fs.heap[i]?)).map (fun f => (f.nbTicks, f.get "n")))

/-- C93: the hypotheses of the partial theorem; the values of the three frames. -/
example : letI := Arith.exact
    ∃ fs, UFeeds (counter false) .minute 1 5 fs hist ∧ Spec.InOrder (hist.map UHEv.plain) ∧
      Spec.NoneSkipped .minute 1 (hist.map UHEv.plain) ∧ (∀ v : ℕ, (counter false).truth v = true) ∧
      fs.view.map (fun f => (f.nbTicks, f.get "n")) = [(4, some 2), (1, some 0), (2, some 1)] := by
  letI := Arith.exact
  have h : seen (after false) = some [(4, some 2), (1, some 0), (2, some 1)] := by decide +kernel
  unfold seen at h
  obtain ⟨fs, h1, h2⟩ := Option.map_eq_some_iff.mp h
  exact ⟨fs, after_feeds h1, hist_order, hist_zone, fun _ => rfl, h2⟩

/-- C93 is false of the code: an object that is falsy when new (`__len__`) is built again at every tick, so its count never
starts. -/
theorem C93_values_false : ¬ @Spec.C93 Arith.exact ℕ := by
  letI := Arith.exact
  intro H
  have h : seen (after true) = some [(4, some 0), (1, some 0), (2, some 0)] := by decide +kernel
  unfold seen at h
  obtain ⟨fs, h1, h2⟩ := Option.map_eq_some_iff.mp h
  have hv : fs.view.map (fun f => (f.nbTicks, f.get "n")) = [(4, some 0), (1, some 0), (2, some 0)] := h2
  have hp : (after true).map (fun fs => (fs.frames.filterMap (fun i => fs.heap[i]?)).map (fun f => (f.periodStart, f.periodEnd))) =
      some [(Demo.monday, some (Demo.monday + 60 * secUs)), (Demo.monday + 60 * secUs, some (Demo.monday + 120 * secUs)),
        (Demo.monday + 120 * secUs, some (Demo.monday + 180 * secUs))] := by decide +kernel
  rw [h1] at hp
  have hp : fs.view.map (fun f => (f.periodStart, f.periodEnd)) = _ := Option.some.inj hp
  rcases hw : fs.view with _ | ⟨f, l⟩
  · rw [hw] at hv; cases hv
  · rw [hw] at hv hp
    obtain ⟨s, e, g1, g2, g3⟩ := H (counter true) .minute 1 5 fs hist "n" counts true _ _ _ (by unfold Spec.Accepted; decide) (by decide)
      (after_feeds h1) hist_order hist_zone (counts_own true) f (by rw [hw]; exact List.mem_cons_self ..)
    have g3 := (g3 (fun x hx _ => hist_reg x hx)).1
    simp only [List.map_cons, List.cons.injEq, Prod.mk.injEq] at hv hp
    rw [← g1] at g3
    rw [g2] at hp
    rw [hp.1.1, hv.1.2, Option.some.inj hp.1.2] at g3
    have hd : Spec.valueOver true (fun _ => 0) (fun (v : ℕ) (_ : Tick) (mo : Bool) => if mo then v + 1 else v)
        ((Spec.during hist Demo.monday (Demo.monday + 60 * secUs)).map UHEv.given) = some 2 := by decide +kernel
    have hn : Spec.during hist Demo.monday (Demo.monday + 60 * secUs) ≠ [] := by
      intro h0; rw [h0] at hd; cases hd
    have := (g3 hn).trans hd
    cases this

/-- C93 for TICK frames: the hypotheses; blocks of four ticks. -/
example : letI := Arith.exact
    ∃ fs, UFeeds (counter false) .tick 4 5 fs hist ∧ Spec.FromEpic (hist.map UHEv.plain) ∧
      fs.heap.map (fun f => (f.nbTicks, f.get "n")) = [(4, some 2), (2, some 1)] := by
  letI := Arith.exact
  have h : (ufeedAll (counter false) (UFrameSet.addIndicator ⟨.tick, 4, 5, [], [], []⟩ counts) six).map
      (fun fs => fs.heap.map (fun f => (f.nbTicks, f.get "n"))) = some [(4, some 2), (2, some 1)] := by decide +kernel
  obtain ⟨fs, h1, h2⟩ := Option.map_eq_some_iff.mp h
  have := ufeeds_of_all six (UFeeds.ind counts (UFeeds.new (M := counter false) (u := .tick) (q := 4) (m := 5))) h1
  rw [List.nil_append] at this
  refine ⟨fs, this, ?_, h2⟩
  intro e he
  simp only [hist, six, List.map_cons, List.map_nil, List.mem_cons, List.not_mem_nil, or_false] at he
  rcases he with rfl | rfl | rfl | rfl | rfl | rfl <;> exact ⟨_, rfl⟩

/-- A class whose constructor raises. -/
private def broken : UInd ℕ := UInd.ofClass "b" false (fun _ _ _ => .error .zeroDiv)

/-- C93: the hypotheses of the theorem about constructors that raise. -/
example : (∀ heap id f mo, ∃ e, broken.build heap id f mo = .error e) ∧
    ∀ i ∈ Spec.added (.add counts :: six.map (fun p => UCmd.tick p.1 p.2)), i.ref ≠ broken.ref := by
  refine ⟨fun _ _ _ _ => ⟨.zeroDiv, rfl⟩, ?_⟩
  have : Spec.added (UCmd.add counts :: six.map (fun p => UCmd.tick p.1 p.2)) = [counts] := rfl
  rw [this]
  intro i hi
  rw [List.mem_singleton.mp hi]
  decide

/-- C93: the hypotheses of the theorem about exceptions of `on_new_tick`, which every second tick of a frame raises here; the frames
are those without indicators. -/
example : letI := Arith.exact
    ∃ M : Methods ℕ, (∀ heap f v t mo, (M.onNewTick heap f v t mo).2 = some .zeroDiv) ∧
      (∀ ind ∈ Spec.added (UCmd.add counts :: six.map (fun p => UCmd.tick p.1 p.2)), ∀ heap id f mo e, ind.build heap id f mo ≠ .error e) ∧
      (UFrameSet.run M ⟨.minute, 1, 5, [], [], []⟩ (.add counts :: six.map (fun p => .tick p.1 p.2))).heap.map (fun f => f.nbTicks) = [4, 1, 2] := by
  letI := Arith.exact
  refine ⟨⟨fun _ _ v _ _ => (v, some .zeroDiv), fun _ => true⟩, fun _ _ _ _ _ => rfl, ?_, by decide +kernel⟩
  intro ind hi heap id f mo e
  rw [List.mem_singleton.mp (show ind ∈ [counts] from hi)]
  unfold counts UInd.ofClass
  dsimp only
  split_ifs <;> (intro h; cases h)

end examples

end Estrade
