import Verif.Lemmas.Custom

/-!
# Values of indicators written by users
-/

set_option autoImplicit false
set_option linter.unusedSectionVars false

namespace Estrade

/-- A delivered tick and the indicators registered then. -/
structure UHEv (β : Type) where
  ctx : Ctx
  tick : Tick
  reg : Dict (UInd β)

/-- Life of a frame set with indicators of any classes, without exceptions. -/
inductive UFeeds [Arith] {β : Type} (M : Methods β) (u : Unit') (q m : ℤ) : UFrameSet β → List (UHEv β) → Prop
  | new : UFeeds M u q m ⟨u, q, m, [], [], []⟩ []
  | ind {fs h} (i : UInd β) : UFeeds M u q m fs h → UFeeds M u q m (fs.addIndicator i) h
  | tick {fs fs' h} (c : Ctx) (t : Tick) : UFeeds M u q m fs h → fs.feed M c t = (fs', none) →
      UFeeds M u q m fs' (h ++ [⟨c, t, fs.indicators⟩])

/-- The delivery, to a frame set without indicators. -/
def UHEv.plain {β : Type} (x : UHEv β) : HEv := ⟨x.ctx, x.tick, []⟩

section
variable [Arith] {β : Type}

theorem UFeeds.feeds {M : Methods β} {u : Unit'} {q m : ℤ} {fs : UFrameSet β} {h : List (UHEv β)} (hF : UFeeds M u q m fs h) :
    Feeds u q m fs.bones (h.map UHEv.plain) := by
  induction hF with
  | new => exact .new
  | ind i _ ih => exact ih
  | @tick fs fs' h c t _ hs ih =>
    rw [List.map_append]
    refine Feeds.tick c t ih ?_
    obtain ⟨h1, h2⟩ := feed_bones M fs c t (.inr (by rw [hs]))
    rw [hs] at h1 h2
    rw [feed_eq]
    have h3 : (fs.bones.feed c t).2 = none := h2.elim id id
    rw [h3, h1]

theorem UFeeds.regOk {M : Methods β} {u : Unit'} {q m : ℤ} {fs : UFrameSet β} {h : List (UHEv β)} (hF : UFeeds M u q m fs h) :
    URegOk fs.indicators := by
  induction hF with
  | new => exact ⟨by simp [Dict.keys], fun k i hk => by cases hk⟩
  | ind i _ ih => exact ih.set i
  | @tick fs fs' h c t _ hs ih =>
    have h1 := feed_indicators M fs c t
    rw [hs] at h1
    rw [show fs' = _ from h1]
    exact ih

/-! ## One tick -/

/-- First tick and values. -/
def UFrame.key (f : UFrame β) : Tick × Dict (Option β) := (f.first, f.vals)

theorem map_modify_key (heap : List (UFrame β)) (i : ℕ) (g : UFrame β → UFrame β) (h : ∀ f, (g f).key = f.key) :
    (heap.modify i g).map UFrame.key = heap.map UFrame.key := by
  apply List.ext_getElem?
  intro j
  rw [List.getElem?_map, List.getElem?_modify, List.getElem?_map]
  rcases heap[j]? with _ | f
  · rfl
  · by_cases hij : i = j
    · simp [hij, h]
    · simp [hij]

theorem ufeedClean_key (max : ℤ) (l : List ℕ) : ∀ heap : List (UFrame β),
    (ufeedClean max heap l).1.1.map UFrame.key = heap.map UFrame.key := by
  induction l with
  | nil => intro heap; rfl
  | cons a l ih =>
    intro heap
    rcases l with _ | ⟨b, rest⟩
    · rfl
    · unfold ufeedClean
      split_ifs with h
      · dsimp only
        exact (ih _).trans ((map_modify_key _ _ _ (by intro f; rfl)).trans (map_modify_key _ _ _ (by intro f; rfl)))
      · rfl

theorem ulinkNext_key (heap : List (UFrame β)) (cur : Option ℕ) (id : ℕ) :
    (ulinkNext heap cur id).map UFrame.key = heap.map UFrame.key := by
  unfold ulinkNext
  rcases cur with _ | i
  · rfl
  · exact map_modify_key heap i _ (fun f => rfl)

/-- New frames have been made; the values of the old ones are kept. -/
def Grown (M : Methods β) (mo : Bool) (inds : Dict (UInd β)) (heap heap' : List (UFrame β)) : Prop :=
  heap.length ≤ heap'.length ∧ ∀ (j : ℕ) (f' : UFrame β), heap'[j]? = some f' →
    (∃ f, heap[j]? = some f ∧ f'.key = f.key) ∨
    (heap.length ≤ j ∧ ∃ hp id ps pe pr, (ufeedInds M hp id f'.first mo inds (UFrame.fresh f'.first ps pe pr)).2 = none ∧
      (ufeedInds M hp id f'.first mo inds (UFrame.fresh f'.first ps pe pr)).1.vals = f'.vals)

theorem Grown.refl (M : Methods β) (mo : Bool) (inds : Dict (UInd β)) (heap : List (UFrame β)) : Grown M mo inds heap heap :=
  ⟨le_rfl, fun _ f' hf => .inl ⟨f', hf, rfl⟩⟩

theorem Grown.trans {M : Methods β} {mo : Bool} {inds : Dict (UInd β)} {a b c : List (UFrame β)} (h1 : Grown M mo inds a b)
    (h2 : Grown M mo inds b c) : Grown M mo inds a c := by
  refine ⟨h1.1.trans h2.1, fun j f' hf => ?_⟩
  rcases h2.2 j f' hf with ⟨f, hf1, hv⟩ | ⟨hle, hp, id, ps, pe, pr, h3, h4⟩
  · rcases h1.2 j f hf1 with ⟨g, hg, hv'⟩ | ⟨hle, hp, id, ps, pe, pr, h3, h4⟩
    · exact .inl ⟨g, hg, hv.trans hv'⟩
    · obtain ⟨e1, e2⟩ : f'.first = f.first ∧ f'.vals = f.vals := Prod.mk.inj hv
      rw [← e1] at h3 h4
      exact .inr ⟨hle, hp, id, ps, pe, pr, h3, h4.trans e2.symm⟩
  · exact .inr ⟨h1.1.trans hle, hp, id, ps, pe, pr, h3, h4⟩

theorem ufeedInds_first (M : Methods β) (heap : List (UFrame β)) (id : ℕ) (t : Tick) (mo : Bool) (inds : Dict (UInd β)) (f : UFrame β) :
    (ufeedInds M heap id t mo inds f).1.first = f.first :=
  congrArg Frame.first (ufeedInds_bones M heap id t mo inds f)

theorem feedCreate_grows {M : Methods β} {fs fs' : UFrameSet β} {c : Ctx} {t : Tick} {ps : ℤ} {pe : Option ℤ}
    (h : fs.feedCreate M c t ps pe = (fs', none)) :
    Grown M c.marketOpen fs.indicators fs.heap fs'.heap ∧ fs.heap.length < fs'.heap.length := by
  have hf := ufeedInds_first M fs.heap fs.heap.length t c.marketOpen fs.indicators (UFrame.fresh t ps pe fs.frames.getLast?)
  unfold UFrameSet.feedCreate at h
  dsimp only at h
  rcases hx : ufeedInds M fs.heap fs.heap.length t c.marketOpen fs.indicators (UFrame.fresh t ps pe fs.frames.getLast?) with ⟨f, _ | e⟩
  · rw [hx] at h hf
    dsimp only at h hf
    have hh := congrArg (fun r => r.1.heap) h
    dsimp only at hh
    have hk : fs'.heap.map UFrame.key = (fs.heap ++ [f]).map UFrame.key := by
      rw [← hh, ufeedClean_key, List.map_append, ulinkNext_key, List.map_append]
    have hl : fs'.heap.length = fs.heap.length + 1 := by
      have := congrArg List.length hk
      simpa using this
    refine ⟨⟨by omega, fun j f' hj => ?_⟩, by omega⟩
    have hj' := congrArg (fun l => l[j]?) hk
    simp only [List.getElem?_map, hj, Option.map_some] at hj'
    obtain ⟨g, hg, he⟩ := Option.map_eq_some_iff.mp hj'.symm
    by_cases hlt : j < fs.heap.length
    · rw [List.getElem?_append_left hlt] at hg
      exact .inl ⟨g, hg, he.symm⟩
    · right
      have hje : j = fs.heap.length := by
        have := (List.getElem?_eq_some_iff.mp hj).1
        omega
      subst hje
      rw [List.getElem?_append_right le_rfl] at hg
      simp only [Nat.sub_self, List.getElem?_cons_zero, Option.some.injEq] at hg
      subst hg
      obtain ⟨e1, e2⟩ : f.first = f'.first ∧ f.vals = f'.vals := Prod.mk.inj he
      have e3 : f'.first = t := e1.symm.trans hf
      rw [e3]
      exact ⟨le_rfl, fs.heap, fs.heap.length, ps, pe, fs.frames.getLast?, by rw [hx], by rw [hx]; exact e2⟩
  · rw [hx] at h
    cases h

theorem ufeedFill_grows (M : Methods β) (c : Ctx) (ps : ℤ) (fuel : ℕ) : ∀ fs fs' : UFrameSet β, ufeedFill M c ps fuel fs = (fs', none) →
    Grown M c.marketOpen fs.indicators fs.heap fs'.heap := by
  induction fuel with
  | zero =>
    intro fs fs' h
    unfold ufeedFill at h
    rcases hcu : fs.current with _ | ⟨i, f⟩ <;> rw [hcu] at h
    · cases h; exact Grown.refl _ _ _ _
    · dsimp only at h
      rcases hpe : f.periodEnd with _ | pe <;> rw [hpe] at h
      · cases h
      · dsimp only at h
        split_ifs at h
        · cases h
        · cases h; exact Grown.refl _ _ _ _
  | succ fuel ih =>
    intro fs fs' h
    unfold ufeedFill at h
    rcases hcu : fs.current with _ | ⟨i, f⟩ <;> rw [hcu] at h
    · cases h; exact Grown.refl _ _ _ _
    · dsimp only at h
      rcases hpe : f.periodEnd with _ | pe <;> rw [hpe] at h
      · cases h
      · dsimp only at h
        split_ifs at h
        · have hi := feedCreate_indicators M fs c f.last pe (some (frameEnd c.zone fs.unit fs.qty pe))
          rcases hx : fs.feedCreate M c f.last pe (some (frameEnd c.zone fs.unit fs.qty pe)) with ⟨fs1, _ | e⟩
          · rw [hx] at h hi
            have h2 := ih fs1 fs' h
            have : fs1.indicators = fs.indicators := by rw [show fs1 = _ from hi]
            rw [this] at h2
            exact (feedCreate_grows hx).1.trans h2
          · rw [hx] at h; cases h
        · cases h; exact Grown.refl _ _ _ _

/-- A tick makes frames or joins the last one. -/
theorem feed_effect {M : Methods β} {fs fs' : UFrameSet β} {c : Ctx} {t : Tick} (h : fs.feed M c t = (fs', none)) :
    (Grown M c.marketOpen fs.indicators fs.heap fs'.heap ∧ fs.heap.length < fs'.heap.length) ∨
    (∃ i f, fs.current = some (i, f) ∧ (ufeedInds M fs.heap i t c.marketOpen fs.indicators (f.track t)).2 = none ∧
      fs'.heap = fs.heap.set i (ufeedInds M fs.heap i t c.marketOpen fs.indicators (f.track t)).1) := by
  have hlast : fs.current ≠ none → fs.feedLast M c t = (fs', none) →
      (∃ i f, fs.current = some (i, f) ∧ (ufeedInds M fs.heap i t c.marketOpen fs.indicators (f.track t)).2 = none ∧
      fs'.heap = fs.heap.set i (ufeedInds M fs.heap i t c.marketOpen fs.indicators (f.track t)).1) := by
    intro hne hl
    unfold UFrameSet.feedLast at hl
    rcases hcu : fs.current with _ | ⟨i, f⟩
    · exact absurd hcu hne
    · rw [hcu] at hl
      obtain ⟨h1, h2⟩ := Prod.mk.inj hl
      refine ⟨i, f, rfl, h2, ?_⟩
      rw [← h1]
  unfold UFrameSet.feed at h
  split_ifs at h with h1 h2
  · exact .inl (feedCreate_grows h)
  · refine .inr (hlast ?_ h)
    intro hn
    unfold UFrameSet.overTick at h2
    rw [hn] at h2
    exact h2 rfl
  · rcases ho : fs.overTimed t with e | b <;> rw [ho] at h
    · cases h
    · dsimp only at h
      split_ifs at h with h3
      · left
        unfold UFrameSet.feedTimed at h
        rcases hps : frameStart fs.unit fs.qty t.dt.wall with e | ps <;> rw [hps] at h
        · cases h
        · dsimp only at h
          have hi := ufeedFill_indicators M c ps (ufillFuel fs ps) fs
          rcases hx : ufeedFill M c ps (ufillFuel fs ps) fs with ⟨fs1, _ | e⟩ <;> rw [hx] at h hi
          · dsimp only at h
            have g1 := ufeedFill_grows M c ps _ fs fs1 hx
            obtain ⟨g2, g3⟩ := feedCreate_grows h
            have : fs1.indicators = fs.indicators := by rw [show fs1 = _ from hi]
            rw [this] at g2
            exact ⟨g1.trans g2, lt_of_le_of_lt g1.1 g3⟩
          · cases h
      · refine .inr (hlast ?_ h)
        intro hn
        unfold UFrameSet.overTimed at ho
        rw [hn] at ho
        cases ho
        exact h3 rfl

/-! ## The value under one reference -/

/-- The value under `r` is made by the indicator registered under `r`, from the frame as it is before the loop. -/
theorem ufeedInds_get (M : Methods β) (heap : List (UFrame β)) (id : ℕ) (t : Tick) (mo : Bool) (r : String) (ind : UInd β)
    (inds : Dict (UInd β)) : ∀ f : UFrame β, URegOk inds → inds.get? r = some ind → (ufeedInds M heap id t mo inds f).2 = none →
    ∃ f0 : UFrame β, f0.bones = f.bones ∧ f0.get r = f.get r ∧ (ufeedOne M heap id t mo f0 (r, ind)).2 = none ∧
      (ufeedInds M heap id t mo inds f).1.get r = (ufeedOne M heap id t mo f0 (r, ind)).1.get r := by
  induction inds with
  | nil => intro f _ h; cases h
  | cons p rest ih =>
    intro f hr hg hn
    have hnd : p.1 ∉ Dict.keys rest ∧ (Dict.keys rest).Nodup := by
      have := hr.1
      unfold Dict.keys at this
      rw [List.map_cons, List.nodup_cons] at this
      exact this
    have hrest : URegOk rest := ⟨hnd.2, fun k i hk => hr.pairs (k, i) (List.mem_cons_of_mem _ (Dict.mem_of_get? hk))⟩
    have hp := hr.pairs p (by simp)
    unfold ufeedInds at hn ⊢
    rw [Dict.get?_cons] at hg
    split_ifs at hg with hk
    · cases hg
      subst hk
      rcases hx : ufeedOne M heap id t mo f p with ⟨f', _ | e⟩ <;> rw [hx] at hn
      · dsimp only at hn ⊢
        refine ⟨f, rfl, rfl, by rw [show ((p.1, p.2) : String × UInd β) = p from rfl, hx], ?_⟩
        rw [show ((p.1, p.2) : String × UInd β) = p from rfl, hx, ufeedInds_get_other]
        intro q hq
        exact ⟨hrest.pairs q hq, fun he => hnd.1 (he ▸ List.mem_map.mpr ⟨q, hq, rfl⟩)⟩
      · cases hn
    · have h1 := ufeedOne_get_other M heap id t mo f p hp r (fun he => hk he.symm)
      have h2 := ufeedOne_bones M heap id t mo f p
      rcases hx : ufeedOne M heap id t mo f p with ⟨f', _ | e⟩ <;> rw [hx] at hn h1 h2
      · dsimp only at hn h1 h2 ⊢
        obtain ⟨f0, g1, g2, g3, g4⟩ := ih f' hrest hg hn
        exact ⟨f0, g1.trans h2, g2.trans h1, g3, g4⟩
      · cases hn

/-- The value class of an indicator looks at nothing but its own ticks: the states of its objects are in `C`, the constructor
reads the last tick of the frame, `on_new_tick` does not raise, the objects are truthy. -/
structure LocalClass (M : Methods β) (r : String) (ind : UInd β) (only : Bool) (init : Tick → β) (step : β → Tick → Bool → β)
    (C : β → Prop) : Prop where
  build : ∀ heap id f mo, ind.build heap id f mo = .ok (if !only || mo then some (init f.last) else none)
  ref : ind.ref = r
  start : ∀ t, C (init t)
  keep : ∀ v t mo, C v → C (step v t mo)
  tick : ∀ heap f v t mo, C v → M.onNewTick heap f v t mo = (step v t mo, none)
  truthy : ∀ v, C v → M.truth v = true

/-- One delivery. -/
def localStep (only : Bool) (init : Tick → β) (step : β → Tick → Bool → β) (o : Option β) (e : Tick × Bool) : Option β :=
  match o with
  | some v => some (step v e.1 e.2)
  | none => if !only || e.2 then some (init e.1) else none

theorem LocalClass.feedOne {M : Methods β} {r : String} {ind : UInd β} {only : Bool} {init : Tick → β} {step : β → Tick → Bool → β}
    {C : β → Prop} (L : LocalClass M r ind only init step C) (heap : List (UFrame β)) (id : ℕ) (t : Tick) (mo : Bool) (f : UFrame β)
    (hl : f.last = t) (hC : ∀ v, f.get r = some v → C v) :
    (ufeedOne M heap id t mo f (r, ind)).1.get r = localStep only init step (f.get r) (t, mo) := by
  unfold ufeedOne localStep
  dsimp only
  rw [L.build, L.ref]
  rcases hg : f.get r with _ | v
  · dsimp only
    rw [UFrame.get_set, if_pos rfl, hl]
  · have hv := hC v hg
    dsimp only
    rw [if_pos (L.truthy v hv), L.tick _ _ _ _ _ hv]
    dsimp only
    rw [UFrame.get_set, if_pos rfl]

theorem localStep_mem {only : Bool} {init : Tick → β} {step : β → Tick → Bool → β} {C : β → Prop} (h1 : ∀ t, C (init t))
    (h2 : ∀ v t mo, C v → C (step v t mo)) (l : List (Tick × Bool)) : ∀ o : Option β, (∀ v, o = some v → C v) →
    ∀ v, l.foldl (localStep only init step) o = some v → C v := by
  induction l with
  | nil => intro o ho v hv; exact ho v hv
  | cons e l ih =>
    intro o ho
    refine ih _ ?_
    intro v hv
    unfold localStep at hv
    rcases o with _ | w
    · dsimp only at hv
      split_ifs at hv
      cases hv; exact h1 _
    · cases hv; exact h2 _ _ _ (ho w rfl)

/-! ## Histories with marks -/

/-- Groupings of histories into frames. -/
structure Grouping (u : Unit') (q m : ℤ) (P : List HEv → Prop) (T : List HEv → List AF) : Prop where
  built : ∀ fs h, Feeds u q m fs h → P h → Built u q m fs (T h)
  nil : T [] = []
  pre : ∀ h x, P (h ++ [x]) → P h
  shape : ∀ h x, P (h ++ [x]) → (∃ B a, T h = B ++ [a] ∧ T (h ++ [x]) = B ++ [{ a with evs := a.evs ++ [x.ev] }]) ∨
    (∃ F, F ≠ [] ∧ T (h ++ [x]) = T h ++ F ∧ ∀ a ∈ F, ∃ t, a.evs = [⟨t, x.ctx.marketOpen, x.reg⟩])
  unmark : ∀ h, T (h.map (fun x => ⟨x.ctx, x.tick, []⟩)) = (T h).map (fun a => { a with evs := a.evs.map (fun e => { e with reg := [] }) })
  blind : ∀ h h' : List HEv, h.map (fun x => (x.ctx, x.tick)) = h'.map (fun x => (x.ctx, x.tick)) → P h → P h'

/-- Something to put into the registrations of deliveries without the indicator. -/
def unmarked : Dict Indicator := [("", ⟨"", .base, false⟩)]

open Classical in
/-- The delivery, with a mark unless the indicator is registered under `r`. -/
noncomputable def UHEv.marked (r : String) (ind : UInd β) (x : UHEv β) : HEv :=
  ⟨x.ctx, x.tick, if x.reg.get? r = some ind then [] else unmarked⟩

theorem marked_plain (r : String) (ind : UInd β) (h : List (UHEv β)) :
    (h.map (UHEv.marked r ind)).map (fun x => (⟨x.ctx, x.tick, []⟩ : HEv)) = h.map UHEv.plain := by
  rw [List.map_map]; rfl

/-- The values of a local class under one reference. -/
theorem UFeeds.values {M : Methods β} {u : Unit'} {q m : ℤ} (hm : 1 ≤ m) {P : List HEv → Prop} {T : List HEv → List AF}
    (hT : Grouping u q m P T) {r : String} {ind : UInd β} {only : Bool} {init : Tick → β} {step : β → Tick → Bool → β}
    {C : β → Prop} (L : LocalClass M r ind only init step C) {fs : UFrameSet β} {h : List (UHEv β)} (hF : UFeeds M u q m fs h)
    (hP : P (h.map (UHEv.marked r ind))) :
    ∀ (j : ℕ) (a : AF) (f : UFrame β), (T (h.map (UHEv.marked r ind)))[j]? = some a → fs.heap[j]? = some f →
      (∀ e ∈ a.evs, e.reg = []) → f.get r = (a.evs.map (fun e => (e.tick, e.mo))).foldl (localStep only init step) none := by
  have hPp : ∀ h : List (UHEv β), P (h.map (UHEv.marked r ind)) → P (h.map UHEv.plain) := fun h =>
    hT.blind _ _ (by rw [List.map_map, List.map_map]; rfl)
  have hlen : ∀ {fs : UFrameSet β} {h : List (UHEv β)}, UFeeds M u q m fs h → P (h.map (UHEv.marked r ind)) →
      Rep fs.bones ((T (h.map (UHEv.marked r ind))).map (fun a => { a with evs := a.evs.map (fun e => { e with reg := [] }) })) := by
    intro fs h hF hP
    rw [← hT.unmark, marked_plain]
    exact (hT.built _ _ hF.feeds (hPp h hP)).rep hm
  induction hF with
  | new => intro j a f _ hf; simp at hf
  | ind i _ ih => exact ih hP
  | @tick fs fs' h c t hF hs ih =>
    have hF' := UFeeds.tick c t hF hs
    have hR' := hlen hF' hP
    rw [List.map_append] at hP hR' ⊢
    have hP0 := hT.pre _ _ hP
    have hR := hlen hF hP0
    have ih := ih hP0
    have hreg := hF.regOk
    have hmf : 1 ≤ fs.bones.maxFrames := by
      have := (hT.built _ _ hF.feeds (hPp h hP0)).fields.2.2
      rw [this]; exact hm
    have l1 : fs.heap.length = (T (h.map (UHEv.marked r ind))).length := by
      have := hR.len
      rw [List.length_map] at this
      rw [← this]
      exact (List.length_map _).symm
    have l2 : fs'.heap.length = (T (h.map (UHEv.marked r ind) ++ [UHEv.marked r ind ⟨c, t, fs.indicators⟩])).length := by
      have := hR'.len
      rw [List.length_map] at this
      rw [← show List.map (UHEv.marked r ind) [⟨c, t, fs.indicators⟩] = [UHEv.marked r ind ⟨c, t, fs.indicators⟩] from rfl, ← this]
      exact (List.length_map _).symm
    simp only [List.map_cons, List.map_nil] at hP hR' ⊢
    have hmark : (UHEv.marked r ind ⟨c, t, fs.indicators⟩).reg = [] → fs.indicators.get? r = some ind := by
      intro hx
      unfold UHEv.marked at hx
      dsimp only at hx
      by_contra hc
      rw [if_neg hc] at hx
      cases hx
    rcases hT.shape _ _ hP with ⟨B, a0, e1, e2⟩ | ⟨F, hne, e2, hev⟩
    · rcases feed_effect hs with ⟨-, hlt⟩ | ⟨i, f0, hcu, hnone, hheap⟩
      · exfalso
        rw [l1, l2, e1, e2] at hlt
        simp at hlt
      · have hi : i = B.length ∧ fs.heap[i]? = some f0 := by
          rw [e1, List.map_append] at hR
          obtain ⟨g, hg, -, -⟩ := hR.current hmf
          rw [current_bones, hcu] at hg
          simp only [Option.map_some, Option.some.injEq, Prod.mk.injEq, List.length_map] at hg
          refine ⟨hg.1, ?_⟩
          unfold UFrameSet.current at hcu
          rcases hl : fs.frames.getLast? with _ | k
          · rw [hl] at hcu; cases hcu
          · rw [hl] at hcu
            obtain ⟨g', hg', hp⟩ := Option.map_eq_some_iff.mp hcu
            cases hp
            exact hg'
        obtain ⟨rfl, hi⟩ := hi
        intro j a f ha hf hall
        rw [e2] at ha
        rw [hheap] at hf
        by_cases hj : j = B.length
        · subst hj
          rw [List.getElem?_append_right le_rfl] at ha
          simp only [Nat.sub_self, List.getElem?_cons_zero, Option.some.injEq] at ha
          subst ha
          rw [List.getElem?_set_self (List.getElem?_eq_some_iff.mp hi).1] at hf
          simp only [Option.some.injEq] at hf
          subst hf
          have hold := ih B.length a0 f0 (by rw [e1]; simp) hi (fun e he => hall e (by simp [he]))
          have hind := hmark (hall _ (by simp [HEv.ev]; right; rfl))
          obtain ⟨f1, b1, b2, -, b4⟩ := ufeedInds_get M fs.heap B.length t c.marketOpen r ind fs.indicators (f0.track t) hreg hind hnone
          have hlast : f1.last = t := by
            have : f1.bones.last = t := by
              rw [b1, track_bones]
              unfold Frame.track
              dsimp only
              split_ifs <;> rfl
            exact this
          have hget : (f0.track t).get r = f0.get r := by
            unfold UFrame.track
            dsimp only
            split_ifs <;> rfl
          rw [hget] at b2
          rw [b4, L.feedOne _ _ _ _ f1 hlast ?_, b2, hold]
          · simp only [List.map_append, List.foldl_append]
            rfl
          · intro v hv
            rw [b2, hold] at hv
            exact localStep_mem L.start L.keep _ none (fun _ h => by cases h) v hv
        · have hj' : j < B.length := by
            have := (List.getElem?_eq_some_iff.mp ha).1
            simp at this
            omega
          rw [List.getElem?_append_left hj'] at ha
          rw [List.getElem?_set_ne (Ne.symm hj)] at hf
          exact ih j a f (by rw [e1, List.getElem?_append_left hj']; exact ha) hf hall
    · rcases feed_effect hs with ⟨⟨-, hg⟩, hlt⟩ | ⟨i, f0, hcu, hnone, hheap⟩
      · intro j a f ha hf hall
        have hcore := hR'.core j
        rw [List.getElem?_map, ha] at hcore
        rw [e2] at ha
        have hcore := hcore _ f.bones rfl (by
          show (fs'.heap.map UFrame.bones)[j]? = _
          rw [List.getElem?_map, hf]; rfl)
        rcases hg j f hf with ⟨f1, hf1, hk⟩ | ⟨hle, hp, id, ps, pe, pr, hn, hv⟩
        · have hj : j < (T (h.map (UHEv.marked r ind))).length := by
            rw [← l1]; exact (List.getElem?_eq_some_iff.mp hf1).1
          rw [List.getElem?_append_left hj] at ha
          have hv : f.vals = f1.vals := (Prod.mk.inj hk).2
          have : f.get r = f1.get r := by unfold UFrame.get; rw [hv]
          rw [this]
          exact ih j a f1 ha hf1 hall
        · rw [l1] at hle
          rw [List.getElem?_append_right hle] at ha
          obtain ⟨t', ht'⟩ := hev a (List.mem_of_getElem? ha)
          have hfirst : f.first = t' := by
            have := hcore.sum.first
            simp only [ht', List.map_cons, List.map_nil, List.head?_cons, Option.some.injEq] at this
            exact this.symm
          have hind := hmark (hall ⟨t', _, _⟩ (by rw [ht']; simp; rfl))
          rw [hfirst] at hn hv
          obtain ⟨f1, b1, b2, -, b4⟩ := ufeedInds_get M hp id t' c.marketOpen r ind fs.indicators (UFrame.fresh t' ps pe pr) hreg hind hn
          have hlast : f1.last = t' := congrArg Frame.last b1
          have : f.get r = (ufeedInds M hp id t' c.marketOpen fs.indicators (UFrame.fresh t' ps pe pr)).1.get r := by
            unfold UFrame.get; rw [hv]
          rw [this, b4, L.feedOne _ _ _ _ f1 hlast ?_, b2, ht']
          · rfl
          · intro v hv
            rw [b2] at hv
            cases hv
      · exfalso
        have := congrArg List.length hheap
        rw [List.length_set, l1, l2, e2, List.length_append] at this
        have : F.length = 0 := by omega
        exact hne (List.length_eq_zero_iff.mp this)

/-! ## The two groupings -/

theorem periodAF_unmark (h : List HEv) (s e : ℤ) : periodAF (h.map (fun x => ⟨x.ctx, x.tick, []⟩)) s e =
    { periodAF h s e with evs := (periodAF h s e).evs.map (fun e => { e with reg := [] }) } := by
  have h1 : inside (h.map (fun x => (⟨x.ctx, x.tick, []⟩ : HEv))) s e = (inside h s e).map (fun x => ⟨x.ctx, x.tick, []⟩) := by
    unfold inside
    rw [List.filter_map]; rfl
  unfold periodAF
  rw [h1, List.filter_map, List.filter_map, List.getLast?_map, List.head?_map]
  simp only [List.map_eq_nil_iff]
  congr 1
  by_cases hi : inside h s e = []
  · rw [if_pos hi, if_pos hi]
    have e1 : (h.filter ((fun x : HEv => decide (x.wall < s)) ∘ fun x => (⟨x.ctx, x.tick, []⟩ : HEv))) = h.filter (fun x => decide (x.wall < s)) := rfl
    have e2 : (h.filter ((fun x : HEv => decide (e ≤ x.wall)) ∘ fun x => (⟨x.ctx, x.tick, []⟩ : HEv))) = h.filter (fun x => decide (e ≤ x.wall)) := rfl
    rw [e1, e2]
    generalize (h.filter (fun x => decide (x.wall < s))).getLast? = o1
    generalize (h.filter (fun x => decide (e ≤ x.wall))).head? = o2
    rcases o1 with _ | p
    · rcases o2 with _ | n <;> rfl
    · rcases o2 with _ | n <;> rfl
  · rw [if_neg hi, if_neg hi, List.map_map, List.map_map]; rfl

theorem timed_grouping {u : Unit'} {q m : ℤ} (hT : Tiles u q) (hm : 1 ≤ m) :
    Grouping u q m (fun h => Sorted h ∧ GridKept u q h) (timedAF u q) where
  built fs h hF hP := feeds_timed hT hm hF hP.1 hP.2
  nil := rfl
  pre h x hP := ⟨(List.pairwise_append.mp hP.1).1, hP.2.mono⟩
  shape h x hP := by
    rcases hl : h.getLast? with _ | l
    · have : h = [] := by simpa using hl
      subst this
      right
      obtain ⟨g1, g2⟩ := gidx_spec hT x.wall
      refine ⟨timedAF u q [x], ?_, rfl, ?_⟩
      · unfold timedAF; simp
      · intro a ha
        unfold timedAF at ha
        simp only [List.head?_cons, List.getLast?_singleton, sub_self, zero_add, Int.toNat_one,
          List.range_one, List.map_cons, List.map_nil, Nat.cast_zero, add_zero, List.mem_singleton] at ha
        rw [ha, show [x] = [] ++ [x] from rfl, periodAF_snoc_new g1 g2 (by simp)]
        exact ⟨x.tick, rfl⟩
    · obtain ⟨B, e1, e2⟩ := timedAF_snoc hT hP.1 hl
      by_cases hlt : x.wall < grid u q (gidx u q l.wall + 1)
      · rw [if_pos hlt] at e2
        exact .inl ⟨B, _, e1, e2⟩
      · rw [if_neg hlt, List.append_assoc, ← e1] at e2
        refine .inr ⟨_, by simp, e2, ?_⟩
        intro a ha
        rcases List.mem_append.mp ha with ha | ha
        · unfold fillers at ha
          obtain ⟨j, -, rfl⟩ := List.mem_map.mp ha
          exact ⟨_, rfl⟩
        · rw [List.mem_singleton.mp ha]
          exact ⟨x.tick, rfl⟩
  unmark h := by
    unfold timedAF
    rw [List.head?_map, List.getLast?_map]
    rcases h.head? with _ | a
    · rfl
    · rcases h.getLast? with _ | b
      · rfl
      · simp only [Option.map_some, List.map_map]
        apply List.map_congr_left
        intro j _
        exact periodAF_unmark h _ _
  blind h h' he hP := by
    have hw : h.map (fun x => (x.wall, x.ctx)) = h'.map (fun x => (x.wall, x.ctx)) := by
      have := congrArg (List.map (fun p : Ctx × Tick => (p.2.dt.wall, p.1))) he
      rw [List.map_map, List.map_map] at this
      exact this
    constructor
    · have := (List.pairwise_map (f := fun x : HEv => (x.wall, x.ctx)) (R := fun a b => a.1 ≤ b.1)).mpr hP.1
      rw [hw] at this
      exact (List.pairwise_map (f := fun x : HEv => (x.wall, x.ctx)) (R := fun a b => a.1 ≤ b.1)).mp this
    · intro e he' x hx k h1 h2
      have m1 : (e.wall, e.ctx) ∈ h.map (fun x => (x.wall, x.ctx)) := by rw [hw]; exact List.mem_map.mpr ⟨e, he', rfl⟩
      have m2 : (x.wall, x.ctx) ∈ h.map (fun x => (x.wall, x.ctx)) := by rw [hw]; exact List.mem_map.mpr ⟨x, hx, rfl⟩
      obtain ⟨e', he1, he2⟩ := List.mem_map.mp m1
      obtain ⟨x', hx1, hx2⟩ := List.mem_map.mp m2
      obtain ⟨a1, a2⟩ := Prod.mk.inj he2
      obtain ⟨b1, b2⟩ := Prod.mk.inj hx2
      rw [← a2]
      exact hP.2 e' he1 x' hx1 k (by rw [b1]; exact h1) (by rw [a1]; exact h2)

theorem tick_grouping {q m : ℤ} (hq : 1 ≤ q) (hm : 1 ≤ m) : Grouping .tick q m Attached (tickAF q.toNat) where
  built fs h hF hP := feeds_tick hq hm hF hP
  nil := by
    unfold tickAF
    rw [List.length_nil, zero_add, Nat.div_eq_of_lt (by omega)]; rfl
  pre h x hP := fun e he => hP e (by simp [he])
  shape h x hP := by
    rcases tickAF_snoc (n := q.toNat) (by omega) (h := h) (x := x) with ⟨-, e, -⟩ | ⟨B, a, e1, -, e2⟩
    · refine .inr ⟨_, by simp, e, ?_⟩
      intro a ha
      rw [List.mem_singleton.mp ha]
      exact ⟨x.tick, rfl⟩
    · exact .inl ⟨B, a, e1, e2⟩
  unmark h := by
    unfold tickAF
    rw [List.length_map, List.map_map]
    apply List.map_congr_left
    intro j _
    unfold block blockAF
    dsimp only [Function.comp]
    rw [← List.map_drop, ← List.map_take, List.head?_map, Option.map_map, List.map_map, List.map_map]
    rfl
  blind h h' he hP := by
    intro e he'
    have m1 : (e.ctx, e.tick) ∈ h.map (fun x => (x.ctx, x.tick)) := by rw [he]; exact List.mem_map.mpr ⟨e, he', rfl⟩
    obtain ⟨e', he1, he2⟩ := List.mem_map.mp m1
    obtain ⟨a1, a2⟩ := Prod.mk.inj he2
    obtain ⟨b, hb⟩ := hP e' he1
    refine ⟨b, ?_⟩
    rw [← a1, hb]
    unfold HEv.wall
    rw [a2]

end

end Estrade
