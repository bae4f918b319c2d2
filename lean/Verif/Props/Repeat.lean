import Verif.Lemmas.Repeat
import Verif.Lemmas.Recount
import Verif.Lemmas.EpicFront
import Verif.Lemmas.Netting
import Verif.Props.Frames
import Verif.Demo

/-!
# C90: a repeated tick adds nothing but a count
-/

set_option linter.style.haveILetI false
set_option linter.unusedSectionVars false
set_option autoImplicit false

namespace Estrade

section
variable [Arith]

/-! ## One frame set -/

/-- C90: a tick given twice in a row to a frame set of a time unit makes no frame and changes no indicator: the only difference is
one more tick in the count of the current frame. -/
theorem C90_repeat (u : Unit') (q m : ℤ) (ha : Spec.Accepted u q) (hm : 1 ≤ m) (fs fs' : FrameSet) (h : List HEv)
    (hF : Feeds u q m fs h) (c : Ctx) (t : Tick) (hz : ∀ x, x ≤ c.zone.resolve x) (hok : fs.onNewTick c t = .ok fs') :
    ∃ fs'' f, fs'.onNewTick c t = .ok fs'' ∧ fs'.view.getLast? = some f ∧
      fs''.view = fs'.view.dropLast ++ [{ f with nbTicks := f.nbTicks + 1 }] ∧
      Spec.uncounted fs'' = Spec.uncounted fs' := by
  obtain ⟨A, hB, -⟩ := feeds_built hm hF
  obtain ⟨A', hB', -⟩ := feeds_built hm (Feeds.tick c t hF hok)
  obtain ⟨i, f, hc, hg, h2⟩ := tick_twice (accepted_tiles ha) hm hz hB hok
  have hlast : fs'.frames.getLast? = some i := by
    unfold FrameSet.current at hc
    rcases hl : fs'.frames.getLast? with _ | j
    · rw [hl] at hc; cases hc
    · rw [hl] at hc
      simp only at hc
      rcases hj : fs'.heap[j]? with _ | g
      · rw [hj] at hc; cases hc
      · rw [hj] at hc
        cases hc
        rfl
  have hnd : fs'.frames.Nodup := by rw [(hB'.rep hm).frames]; exact List.nodup_range'
  obtain ⟨l, hl⟩ : ∃ l, fs'.frames = l ++ [i] := ⟨_, (List.dropLast_append_getLast? i hlast).symm⟩
  have hview : fs'.view = l.filterMap (fun j => fs'.heap[j]?) ++ [f] := by
    unfold FrameSet.view
    rw [hl, List.filterMap_append]
    simp [hg]
  have hlt : i < fs'.heap.length := (List.getElem?_eq_some_iff.mp hg).1
  refine ⟨_, f, h2, by rw [hview]; simp, ?_, ?_⟩
  · rw [hview, List.dropLast_concat]
    unfold FrameSet.view
    simp only
    rw [hl, List.filterMap_append]
    congr 1
    · refine List.filterMap_congr fun j hj => ?_
      rw [hl, List.nodup_append] at hnd
      rw [List.getElem?_set_ne (fun h => hnd.2.2 j hj i (by simp) h.symm)]
    · simp [List.getElem?_set_self hlt]
  · unfold Spec.uncounted
    simp only [List.map_set]
    congr 1
    apply List.ext_getElem?
    intro j
    rw [List.getElem?_set]
    split_ifs with h1 h3
    · subst h1
      rw [List.getElem?_map, hg]; rfl
    · subst h1
      rw [List.getElem?_eq_none (by omega)]
    · rfl

/-! ## Epics -/

/-- Spec: the epic without the counts of ticks of its frames and without its strategies. -/
def Spec.uncountedEpic (ep : Epic) : Epic :=
  { ep with frameSets := ep.frameSets.map (fun p => (p.1, Spec.uncounted p.2)), strategies := [] }

/-- Spec: `l'` is `l` with some ticks left out that repeat the tick just before them. -/
inductive Spec.Repeats : List Cmd → List Cmd → Prop
  | nil : Spec.Repeats [] []
  | cons (c : Cmd) {l l' : List Cmd} : Spec.Repeats l l' → Spec.Repeats (c :: l) (c :: l')
  | again (e : ℕ) (t : Tick) {l l' : List Cmd} : Spec.Repeats (.tick e t :: l) l' → Spec.Repeats (.tick e t :: .tick e t :: l) l'

/-- Spec: the frame sets of the program are new ones, of time units. -/
def Spec.NewTimed (l : List Cmd) : Prop :=
  ∀ e ref fs, Cmd.addFrameSet e ref fs ∈ l → ∃ u q m, Spec.Accepted u q ∧ 1 ≤ m ∧ fs = ⟨u, q, m, [], [], []⟩

/-- Spec: no frame set raises an exception while the program runs. -/
def Spec.FramesQuiet (env : Env) (w : World) (l : List Cmd) : Prop :=
  ∀ pre post e t ep, l = pre ++ Cmd.tick e t :: post → (w.runCmds env pre).epics[e]? = some ep →
    (t.dt.to ep.zone).lt ep.lastTick.dt = false → (ep.accept { t with dt := t.dt.to ep.zone }).2 = none

/-- A frame set with a history. -/
def LiveSet (fs : FrameSet) : Prop := ∃ u q m A, Spec.Accepted u q ∧ 1 ≤ m ∧ Built u q m fs A

theorem LiveSet.timed {fs : FrameSet} (h : LiveSet fs) : fs.unit ≠ .tick := by
  obtain ⟨u, q, m, A, ha, -, hB⟩ := h
  rw [hB.fields.1]
  exact ha.2.2

/-- Epics whose frame sets have a history. -/
def LiveEpic (ep : Epic) : Prop := (∀ x, x ≤ ep.zone.resolve x) ∧ ∀ p ∈ ep.frameSets, LiveSet p.2

theorem LiveSet.feed {fs : FrameSet} (h : LiveSet fs) {c : Ctx} {t : Tick} (hq : (fs.feed c t).2 = none) : LiveSet (fs.feed c t).1 := by
  obtain ⟨u, q, m, A, ha, hm, hB⟩ := h
  have hok := (feed_agrees fs c t).ok hq
  rcases step_built hm hB hok with ⟨F, ps, pe, h, -⟩ | ⟨B, a, -, h, -⟩
  · exact ⟨u, q, m, _, ha, hm, h⟩
  · exact ⟨u, q, m, _, ha, hm, h⟩

theorem LiveSet.twice {fs : FrameSet} (h : LiveSet fs) {c : Ctx} (hz : ∀ x, x ≤ c.zone.resolve x) {t : Tick} (hq : (fs.feed c t).2 = none) :
    Spec.uncounted ((fs.feed c t).1.feed c t).1 = Spec.uncounted (fs.feed c t).1 ∧ ((fs.feed c t).1.feed c t).2 = none := by
  obtain ⟨u, q, m, A, ha, hm, hB⟩ := h
  have hok := (feed_agrees fs c t).ok hq
  obtain ⟨i, f, -, hg, h2⟩ := tick_twice (accepted_tiles ha) hm hz hB hok
  rw [feed_ok h2]
  refine ⟨?_, rfl⟩
  unfold Spec.uncounted
  simp only [List.map_set]
  congr 1
  apply List.ext_getElem?
  intro j
  rw [List.getElem?_set]
  split_ifs with h1 h3
  · subst h1
    rw [List.getElem?_map, hg]; rfl
  · subst h1
    rw [List.getElem?_eq_none (by omega)]
  · rfl

theorem update_live {c : Ctx} {t : Tick} {d : Dict FrameSet} (hd : ∀ p ∈ d, LiveSet p.2) (hq : (updateFrameSets c t d).2 = none) :
    ∀ p ∈ (updateFrameSets c t d).1, LiveSet p.2 := by
  induction d with
  | nil => intro p hp; cases hp
  | cons x d ih =>
    obtain ⟨k, fs⟩ := x
    unfold updateFrameSets at hq ⊢
    rcases hf : fs.feed c t with ⟨fs', _ | err⟩
    · rw [hf] at hq
      simp only at hq ⊢
      have h1 : LiveSet fs' := by
        have := (hd (k, fs) List.mem_cons_self).feed (c := c) (t := t) (by rw [hf])
        rwa [hf] at this
      intro p hp
      rcases List.mem_cons.mp hp with rfl | hp
      · exact h1
      · exact ih (fun p hp => hd p (List.mem_cons_of_mem _ hp)) hq p hp
    · rw [hf] at hq; cases hq

theorem update_twice {c : Ctx} (hz : ∀ x, x ≤ c.zone.resolve x) {t : Tick} {d : Dict FrameSet} (hd : ∀ p ∈ d, LiveSet p.2)
    (hq : (updateFrameSets c t d).2 = none) :
    (updateFrameSets c t (updateFrameSets c t d).1).1.map (fun p => (p.1, Spec.uncounted p.2)) =
      (updateFrameSets c t d).1.map (fun p => (p.1, Spec.uncounted p.2)) ∧
    (updateFrameSets c t (updateFrameSets c t d).1).2 = none := by
  induction d with
  | nil => exact ⟨rfl, rfl⟩
  | cons x d ih =>
    obtain ⟨k, fs⟩ := x
    have h2 := (hd (k, fs) List.mem_cons_self).twice hz (t := t)
    rw [updateFrameSets] at hq ⊢
    rcases hf : fs.feed c t with ⟨fs', _ | err⟩
    · rw [hf] at hq h2
      simp only at hq h2 ⊢
      obtain ⟨i1, i2⟩ := ih (fun p hp => hd p (List.mem_cons_of_mem _ hp)) hq
      obtain ⟨j1, j2⟩ := h2 trivial
      rw [updateFrameSets]
      rcases hf' : fs'.feed c t with ⟨fs'', _ | err⟩
      · rw [hf'] at j1
        simp only [List.map_cons, i1, i2, and_true]
        rw [j1]
      · rw [hf'] at j2; cases j2
    · rw [hf] at hq; cases hq

theorem update_recount {c : Ctx} {t : Tick} {d d' : Dict FrameSet} (hd : ∀ p ∈ d, LiveSet p.2)
    (h : d.map (fun p => (p.1, Spec.uncounted p.2)) = d'.map (fun p => (p.1, Spec.uncounted p.2))) :
    (updateFrameSets c t d).1.map (fun p => (p.1, Spec.uncounted p.2)) = (updateFrameSets c t d').1.map (fun p => (p.1, Spec.uncounted p.2)) ∧
    (updateFrameSets c t d).2 = (updateFrameSets c t d').2 := by
  induction d generalizing d' with
  | nil =>
    rcases d' with _ | ⟨y, d'⟩
    · exact ⟨rfl, rfl⟩
    · cases h
  | cons x d ih =>
    rcases d' with _ | ⟨y, d'⟩
    · cases h
    obtain ⟨k, fs⟩ := x
    obtain ⟨k', gs⟩ := y
    simp only [List.map_cons, List.cons.injEq, Prod.mk.injEq] at h
    obtain ⟨⟨rfl, h1⟩, h2⟩ := h
    obtain ⟨g1, g2⟩ := feed_recount h1 (hd (k, fs) List.mem_cons_self).timed c t
    obtain ⟨i1, i2⟩ := ih (fun p hp => hd p (List.mem_cons_of_mem _ hp)) h2
    unfold updateFrameSets
    rcases hf : fs.feed c t with ⟨fs', _ | err⟩ <;> rcases hg : gs.feed c t with ⟨gs', _ | err'⟩ <;> rw [hf, hg] at g1 g2
    · simp only [List.map_cons, i1, i2, g1, and_self]
    · cases g2
    · cases g2
    · cases g2
      simp only [List.map_cons, h2, g1, and_self]

/-! ## Fronts -/

theorem accept_zone (ep : Epic) (t : Tick) : (ep.accept t).1.zone = ep.zone := rfl

theorem accept_live {ep : Epic} (h : LiveEpic ep) {t : Tick} (hq : (ep.accept t).2 = none) : LiveEpic (ep.accept t).1 :=
  ⟨h.1, update_live h.2 hq⟩

theorem accept_twice {ep : Epic} (h : LiveEpic ep) {t : Tick} (hq : (ep.accept t).2 = none) :
    Spec.uncountedEpic ((ep.accept t).1.accept t).1 = Spec.uncountedEpic (ep.accept t).1 ∧ ((ep.accept t).1.accept t).2 = none := by
  have hmo : (ep.accept t).1.marketOpen = ({ ep with lastTick := t } : Epic).isMarketOpen := rfl
  have hmo' : ({ (ep.accept t).1 with lastTick := t } : Epic).isMarketOpen = ({ ep with lastTick := t } : Epic).isMarketOpen := rfl
  obtain ⟨h1, h2⟩ := update_twice (c := ⟨ep.zone, some (({ ep with lastTick := t } : Epic).isMarketOpen, ordOf t.dt.wall)⟩) h.1 (t := t) h.2 hq
  refine ⟨?_, h2⟩
  unfold Spec.uncountedEpic
  have : ∀ a b : Epic, a.frameSets.map (fun p => (p.1, Spec.uncounted p.2)) = b.frameSets.map (fun p => (p.1, Spec.uncounted p.2)) →
      { a with frameSets := [], strategies := [] } = ({ b with frameSets := [], strategies := [] } : Epic) →
      ({ a with frameSets := a.frameSets.map (fun p => (p.1, Spec.uncounted p.2)), strategies := [] } : Epic) =
        { b with frameSets := b.frameSets.map (fun p => (p.1, Spec.uncounted p.2)), strategies := [] } := by
    intro a b h1 h2
    rw [h1]
    simp only [Epic.mk.injEq] at h2 ⊢
    tauto
  exact this _ _ h1 rfl

theorem uncountedEpic_iff (a b : Epic) : Spec.uncountedEpic a = Spec.uncountedEpic b ↔
    a.frameSets.map (fun p => (p.1, Spec.uncounted p.2)) = b.frameSets.map (fun p => (p.1, Spec.uncounted p.2)) ∧
      { a with frameSets := [], strategies := [] } = ({ b with frameSets := [], strategies := [] } : Epic) := by
  unfold Spec.uncountedEpic
  simp only [Epic.mk.injEq]
  tauto

theorem accept_recount {a b : Epic} (ha : LiveEpic a) (h : Spec.uncountedEpic a = Spec.uncountedEpic b) (t : Tick) :
    Spec.uncountedEpic (a.accept t).1 = Spec.uncountedEpic (b.accept t).1 ∧ (a.accept t).2 = (b.accept t).2 := by
  obtain ⟨h1, h2⟩ := (uncountedEpic_iff a b).mp h
  have hmo : ({ a with lastTick := t } : Epic).isMarketOpen = ({ b with lastTick := t } : Epic).isMarketOpen := by
    have : ∀ e : Epic, ({ e with lastTick := t } : Epic).isMarketOpen =
      ({ ({ e with frameSets := [], strategies := [] } : Epic) with lastTick := t } : Epic).isMarketOpen := fun e => rfl
    rw [this a, this b, h2]
  have hz : a.zone = b.zone := by have := congrArg Epic.zone h2; exact this
  obtain ⟨g1, g2⟩ := update_recount (c := ⟨a.zone, some (({ a with lastTick := t } : Epic).isMarketOpen, ordOf t.dt.wall)⟩) (t := t) ha.2 h1
  refine ⟨(uncountedEpic_iff _ _).mpr ⟨?_, ?_⟩, ?_⟩
  · refine g1.trans ?_
    rw [hmo, hz]; rfl
  · have e : ∀ x : Epic, ({ (x.accept t).1 with frameSets := [], strategies := [] } : Epic) =
        { ({ x with frameSets := [], strategies := [] } : Epic) with lastTick := t, marketOpen := ({ x with lastTick := t } : Epic).isMarketOpen } :=
      fun x => rfl
    rw [e, e, h2, hmo]
  · refine g2.trans ?_
    rw [hmo, hz]; rfl

/-- No frame set raises. -/
def quiet : List Epic → List Cmd → Prop
  | _, [] => True
  | L, c :: l => (∀ e t ep, c = .tick e t → L[e]? = some ep → (t.dt.to ep.zone).lt ep.lastTick.dt = false →
      (ep.accept { t with dt := t.dt.to ep.zone }).2 = none) ∧ quiet (frontStep L c) l

theorem DT.lt_irrefl (d : DT) : d.lt d = false := by
  unfold DT.lt
  simp

theorem frontStep_live {L : List Epic} (hL : ∀ ep ∈ L, LiveEpic ep) {c : Cmd} (hn : Spec.NewTimed [c]) (hq : quiet L [c]) :
    ∀ ep ∈ frontStep L c, LiveEpic ep := by
  have hset : ∀ (e : ℕ) (x : Epic), LiveEpic x → ∀ ep ∈ L.set e x, LiveEpic ep := by
    intro e x hx ep hep
    rcases List.mem_or_eq_of_mem_set hep with h | rfl
    · exact hL ep h
    · exact hx
  cases c with
  | tick e t =>
    unfold frontStep
    simp only
    rcases he : L[e]? with _ | ep
    · exact hL
    · simp only
      split_ifs with h
      · exact hL
      · exact hset e _ (accept_live (hL ep (List.mem_of_getElem? he)) (hq.1 e t ep rfl he (by simpa using h)))
  | addFrameSet e ref fs =>
    unfold frontStep
    simp only
    rcases he : L[e]? with _ | ep
    · exact hL
    · simp only
      split
      · exact hL
      · rename_i hg
        refine hset e _ ⟨(hL ep (List.mem_of_getElem? he)).1, fun p hp => ?_⟩
        simp only at hp
        rw [Dict.set_new _ _ _ hg] at hp
        rcases List.mem_append.mp hp with hp | hp
        · exact (hL ep (List.mem_of_getElem? he)).2 p hp
        · rw [List.mem_singleton.mp hp]
          obtain ⟨u, q, m, ha, hm, rfl⟩ := hn e ref fs (by simp)
          exact ⟨u, q, m, [], ha, hm, Built.new⟩
  | addIndicator e ref ind =>
    unfold frontStep
    simp only
    rcases he : L[e]? with _ | ep
    · exact hL
    · simp only
      split
      · exact hL
      · rename_i fs hg
        refine hset e _ ⟨(hL ep (List.mem_of_getElem? he)).1, fun p hp => ?_⟩
        have hlive := (hL ep (List.mem_of_getElem? he)).2
        have hfs : LiveSet (fs.addIndicator ind).1 := by
          obtain ⟨u, q, m, A, ha, hm, hB⟩ := hlive _ (Dict.mem_of_get? hg)
          exact ⟨u, q, m, A, ha, hm, Built.ind ind hB⟩
        simp only at hp
        unfold Dict.set at hp
        split_ifs at hp
        · obtain ⟨x, hx, rfl⟩ := List.mem_map.mp hp
          split_ifs
          · exact hfs
          · exact hlive x hx
        · rcases List.mem_append.mp hp with hp | hp
          · exact hlive p hp
          · rw [List.mem_singleton.mp hp]; exact hfs
  | op o => exact hL
  | addStrategy e s => exact hL

theorem recount_get {L L' : List Epic} (h : L.map Spec.uncountedEpic = L'.map Spec.uncountedEpic) (e : ℕ) :
    (L[e]?).map Spec.uncountedEpic = (L'[e]?).map Spec.uncountedEpic := by
  rw [← List.getElem?_map, ← List.getElem?_map, h]

theorem Dict.get?_recount {d d' : Dict FrameSet} (h : d.map (fun p => (p.1, Spec.uncounted p.2)) = d'.map (fun p => (p.1, Spec.uncounted p.2)))
    (ref : String) : (d.get? ref).map Spec.uncounted = (d'.get? ref).map Spec.uncounted := by
  rw [← Dict.get?_map, ← Dict.get?_map, h]

theorem uncounted_addIndicator (fs : FrameSet) (ind : Indicator) :
    Spec.uncounted (fs.addIndicator ind).1 = ((Spec.uncounted fs).addIndicator ind).1 := by
  unfold FrameSet.addIndicator
  rcases ind.kind <;> rfl

theorem frontStep_recount {L L' : List Epic} (hL : ∀ ep ∈ L, LiveEpic ep) (h : L.map Spec.uncountedEpic = L'.map Spec.uncountedEpic)
    (c : Cmd) : (frontStep L c).map Spec.uncountedEpic = (frontStep L' c).map Spec.uncountedEpic := by
  have hsets : ∀ {a b : Epic} {d d' : Dict FrameSet}, Spec.uncountedEpic a = Spec.uncountedEpic b →
      d.map (fun p => (p.1, Spec.uncounted p.2)) = d'.map (fun p => (p.1, Spec.uncounted p.2)) →
      Spec.uncountedEpic { a with frameSets := d } = Spec.uncountedEpic { b with frameSets := d' } := by
    intro a b d d' h1 h2
    exact (uncountedEpic_iff _ _).mpr ⟨h2, ((uncountedEpic_iff a b).mp h1).2⟩
  cases c with
  | tick e t =>
    have he := recount_get h e
    unfold frontStep
    simp only
    rcases h1 : L[e]? with _ | a <;> rcases h2 : L'[e]? with _ | b <;> rw [h1, h2] at he
    · exact h
    · cases he
    · cases he
    · have hab : Spec.uncountedEpic a = Spec.uncountedEpic b := Option.some.inj he
      have hz : a.zone = b.zone := by have := congrArg Epic.zone hab; exact this
      have hl : a.lastTick = b.lastTick := by have := congrArg Epic.lastTick hab; exact this
      simp only
      rw [hz, hl]
      split_ifs
      · exact h
      · rw [List.map_set, List.map_set, h, (accept_recount (hL a (List.mem_of_getElem? h1)) hab _).1]
  | addFrameSet e ref fs =>
    have he := recount_get h e
    unfold frontStep
    simp only
    rcases h1 : L[e]? with _ | a <;> rcases h2 : L'[e]? with _ | b <;> rw [h1, h2] at he
    · exact h
    · cases he
    · cases he
    · have hab : Spec.uncountedEpic a = Spec.uncountedEpic b := Option.some.inj he
      have hd := ((uncountedEpic_iff a b).mp hab).1
      have hg := Dict.get?_recount hd ref
      simp only
      rcases g1 : a.frameSets.get? ref with _ | x <;> rcases g2 : b.frameSets.get? ref with _ | y <;> rw [g1, g2] at hg
      · simp only
        rw [List.map_set, List.map_set, h]
        congr 1
        refine hsets hab ?_
        rw [Dict.set_new _ _ _ g1, Dict.set_new _ _ _ g2, List.map_append, List.map_append, hd]
      · cases hg
      · cases hg
      · exact h
  | addIndicator e ref ind =>
    have he := recount_get h e
    unfold frontStep
    simp only
    rcases h1 : L[e]? with _ | a <;> rcases h2 : L'[e]? with _ | b <;> rw [h1, h2] at he
    · exact h
    · cases he
    · cases he
    · have hab : Spec.uncountedEpic a = Spec.uncountedEpic b := Option.some.inj he
      have hd := ((uncountedEpic_iff a b).mp hab).1
      have hg := Dict.get?_recount hd ref
      simp only
      rcases g1 : a.frameSets.get? ref with _ | x <;> rcases g2 : b.frameSets.get? ref with _ | y <;> rw [g1, g2] at hg
      · exact h
      · cases hg
      · cases hg
      · have hxy : Spec.uncounted x = Spec.uncounted y := Option.some.inj hg
        simp only
        rw [List.map_set, List.map_set, h]
        congr 1
        refine hsets hab ?_
        rw [← Dict.set_map, ← Dict.set_map, hd, uncounted_addIndicator, uncounted_addIndicator, hxy]
  | op o => exact h
  | addStrategy e s => exact h

theorem quiet_recount {l : List Cmd} : ∀ {L L' : List Epic}, Spec.NewTimed l → (∀ ep ∈ L, LiveEpic ep) →
    L.map Spec.uncountedEpic = L'.map Spec.uncountedEpic → quiet L l →
    quiet L' l ∧ (l.foldl frontStep L).map Spec.uncountedEpic = (l.foldl frontStep L').map Spec.uncountedEpic := by
  induction l with
  | nil => intro L L' _ _ h _; exact ⟨trivial, h⟩
  | cons c l ih =>
    intro L L' hn hL h hq
    have hn1 : Spec.NewTimed [c] := fun e ref fs hm => hn e ref fs (by rw [List.mem_singleton.mp hm]; exact List.mem_cons_self)
    obtain ⟨i1, i2⟩ := ih (fun e ref fs hm => hn e ref fs (List.mem_cons_of_mem _ hm)) (frontStep_live hL hn1 ⟨hq.1, trivial⟩)
      (frontStep_recount hL h c) hq.2
    refine ⟨⟨?_, i1⟩, i2⟩
    intro e t b hc hb hr
    have he := recount_get h e
    rcases h1 : L[e]? with _ | a
    · rw [h1, hb] at he; cases he
    · rw [h1, hb] at he
      have hab : Spec.uncountedEpic a = Spec.uncountedEpic b := Option.some.inj he
      have hz : a.zone = b.zone := by have := congrArg Epic.zone hab; exact this
      have hl : a.lastTick = b.lastTick := by have := congrArg Epic.lastTick hab; exact this
      rw [← hz, ← hl] at hr
      rw [← hz, ← (accept_recount (hL a (List.mem_of_getElem? h1)) hab _).2]
      exact hq.1 e t a hc h1 hr

/-- The same tick again changes nothing but counts. -/
theorem frontStep_twice {L : List Epic} (hL : ∀ ep ∈ L, LiveEpic ep) (e : ℕ) (t : Tick) (hq : quiet L [.tick e t]) :
    (frontStep (frontStep L (.tick e t)) (.tick e t)).map Spec.uncountedEpic = (frontStep L (.tick e t)).map Spec.uncountedEpic ∧
      quiet (frontStep L (.tick e t)) [.tick e t] := by
  rcases he : L[e]? with _ | ep
  · have h1 : frontStep L (.tick e t) = L := by unfold frontStep; simp only [he]
    rw [h1, h1]
    exact ⟨rfl, hq⟩
  · rcases hr : (t.dt.to ep.zone).lt ep.lastTick.dt with _ | _
    · have hq' := hq.1 e t ep rfl he hr
      have hlt : e < L.length := (List.getElem?_eq_some_iff.mp he).1
      have h1 : frontStep L (.tick e t) = L.set e (ep.accept { t with dt := t.dt.to ep.zone }).1 := by
        unfold frontStep; simp only [he, hr, Bool.false_eq_true, if_false]
      have hg : (L.set e (ep.accept { t with dt := t.dt.to ep.zone }).1)[e]? = some (ep.accept { t with dt := t.dt.to ep.zone }).1 :=
        List.getElem?_set_self hlt
      have hz : (ep.accept { t with dt := t.dt.to ep.zone }).1.zone = ep.zone := rfl
      have hl : (ep.accept { t with dt := t.dt.to ep.zone }).1.lastTick.dt = t.dt.to ep.zone := rfl
      obtain ⟨g1, g2⟩ := accept_twice (hL ep (List.mem_of_getElem? he)) hq'
      rw [h1]
      constructor
      · unfold frontStep
        simp only [hg, hz, hl, DT.lt_irrefl, Bool.false_eq_true, if_false]
        rw [List.set_set, List.map_set, List.map_set, g1]
      · refine ⟨?_, trivial⟩
        intro e' t' ep' hc hget hr'
        cases hc
        rw [hg] at hget
        cases hget
        exact g2
    · have h1 : frontStep L (.tick e t) = L := by
        unfold frontStep; simp only [he, hr, if_true]
      rw [h1, h1]
      exact ⟨rfl, hq⟩

theorem repeats_front {l l' : List Cmd} (h : Spec.Repeats l l') : ∀ {L : List Epic}, Spec.NewTimed l → (∀ ep ∈ L, LiveEpic ep) → quiet L l →
    (l.foldl frontStep L).map Spec.uncountedEpic = (l'.foldl frontStep L).map Spec.uncountedEpic := by
  induction h with
  | nil => intro L _ _ _; rfl
  | cons c h ih =>
    intro L hn hL hq
    have hn1 : Spec.NewTimed [c] := fun e ref fs hm => hn e ref fs (by rw [List.mem_singleton.mp hm]; exact List.mem_cons_self)
    exact ih (fun e ref fs hm => hn e ref fs (List.mem_cons_of_mem _ hm)) (frontStep_live hL hn1 ⟨hq.1, trivial⟩) hq.2
  | @again e t l l' h ih =>
    intro L hn hL hq
    have hn' : Spec.NewTimed (.tick e t :: l) := fun e ref fs hm => hn e ref fs (List.mem_cons_of_mem _ hm)
    have hnl : Spec.NewTimed l := fun e ref fs hm => hn' e ref fs (List.mem_cons_of_mem _ hm)
    have hn1 : Spec.NewTimed [.tick e t] := fun e' ref fs hm => by simp at hm
    have hL1 := frontStep_live hL hn1 ⟨hq.1, trivial⟩
    have hL2 := frontStep_live hL1 hn1 ⟨hq.2.1, trivial⟩
    obtain ⟨h1, -⟩ := frontStep_twice hL e t ⟨hq.1, trivial⟩
    obtain ⟨h2, h3⟩ := quiet_recount hnl hL2 h1 hq.2.2
    exact h3.trans (ih hn' hL ⟨hq.1, h2⟩)

theorem quiet_of_world {env : Env} {l : List Cmd} : ∀ {w : World}, Spec.FramesQuiet env w l → quiet (w.epics.map Epic.front) l := by
  induction l with
  | nil => intro w _; trivial
  | cons c l ih =>
    intro w h
    constructor
    · intro e t ep hc hg hr
      rw [front_get] at hg
      obtain ⟨ep', hg', rfl⟩ := Option.map_eq_some_iff.mp hg
      exact h [] l e t ep' (by rw [hc]; rfl) hg' hr
    · rw [← exec_front env w c]
      refine ih ?_
      intro pre post e t ep hl hg hr
      exact h (c :: pre) post e t ep (by rw [hl]; rfl) hg hr

/-- C90: a program in which some ticks are given several times in a row leaves every epic with the same last tick, market state,
frames and indicator values as the program without the repetitions, whatever its strategies do; only counts of ticks differ. -/
theorem C90_program (env : Env) (w : World) (hw : w.Init) (hz : ∀ ep ∈ w.epics, ∀ x, x ≤ ep.zone.resolve x) (l l' : List Cmd)
    (hl : Spec.NewTimed l) (hq : Spec.FramesQuiet env w l) (h : Spec.Repeats l l') (env' : Env) :
    (w.runCmds env l).epics.map Spec.uncountedEpic = (w.runCmds env' l').epics.map Spec.uncountedEpic := by
  have hfr : ∀ L : List Epic, L.map Spec.uncountedEpic = (L.map Epic.front).map Spec.uncountedEpic := by
    intro L; rw [List.map_map]; rfl
  rw [hfr (w.runCmds env l).epics, hfr (w.runCmds env' l').epics, runCmds_front, runCmds_front]
  refine repeats_front h hl ?_ (quiet_of_world hq)
  intro ep hep
  obtain ⟨ep', hep', rfl⟩ := List.mem_map.mp hep
  refine ⟨hz ep' hep', ?_⟩
  obtain ⟨ref, z, o, c, td, hd, p, -, rfl⟩ := hw.epics ep' hep'
  intro p hp
  cases hp

/-- C90: the repetition is accepted. -/
theorem C90_accepted (env : Env) (w : World) (e : ℕ) (t : Tick) (ep : Epic) (he : w.epics[e]? = some ep)
    (hr : (t.dt.to ep.zone).lt ep.lastTick.dt = false) :
    ∃ ep', (w.onNewTick env e t).1.epics[e]? = some ep' ∧ (t.dt.to ep'.zone).lt ep'.lastTick.dt = false := by
  obtain ⟨h1, -⟩ := onNewTick_effect env w e t ep he hr
  have hlt : e < w.epics.length := (List.getElem?_eq_some_iff.mp he).1
  refine ⟨_, by rw [h1]; exact List.getElem?_set_self hlt, ?_⟩
  exact DT.lt_irrefl _

/-! ## Open trades -/

theorem updateMinMax_eq (s : Trade) : s.updateMinMax = { s with
    maxRes := (if s.maxRes < s.result then s.result else s.maxRes)
    minRes := (if s.result < s.minRes then s.result else s.minRes) } := by
  unfold Trade.updateMinMax
  simp only
  by_cases h1 : s.maxRes < s.result
  · have hr' : ({ s with maxRes := s.result } : Trade).result = s.result := rfl
    simp only [if_pos h1, hr']
    split_ifs <;> rfl
  · simp only [if_neg h1]
    split_ifs <;> rfl

theorem updateMinMax_twice (t : Trade) : t.updateMinMax.updateMinMax = t.updateMinMax := by
  have hr : ∀ a b : ℚ, ({ t with maxRes := a, minRes := b } : Trade).result = t.result := fun a b => rfl
  rw [updateMinMax_eq t, updateMinMax_eq]
  simp only [hr]
  congr 1
  · split_ifs <;> rfl
  · split_ifs <;> rfl

theorem trade_update_twice (t : Trade) (v : ℚ) : (t.update v).update v = t.update v := by
  by_cases hc : t.closed = true
  · have : t.update v = t := by unfold Trade.update; rw [if_pos hc]
    rw [this, this]
  · have h1 : t.update v = ({ t with curClose := v } : Trade).updateMinMax := by
      unfold Trade.update
      rw [if_neg hc]
    have h2 := updateMinMax_twice { t with curClose := v }
    rw [h1]
    conv_rhs => rw [← h2]
    rw [updateMinMax_eq]
    unfold Trade.update
    rw [if_neg (by exact hc)]

/-- C90: revaluing a trade at the same quotes again changes nothing (current value, result, highest and lowest result). -/
theorem C90_trade (t : Trade) (k : Tick) : (t.updateFromTick k).updateFromTick k = t.updateFromTick k := by
  have hd : ∀ v, (t.update v).dir = t.dir := by
    intro v
    unfold Trade.update
    rw [updateMinMax_eq]
    split_ifs <;> rfl
  unfold Trade.updateFromTick
  rw [hd]
  exact trade_update_twice t _

/-- C90: so a repetition leaves all trades of a provider as they are. -/
theorem C90_open_trades (env : Env) (w : World) (hw : Reachable env w) (p : ℕ) (k : Tick) :
    (w.updateOpenTrades p k).updateOpenTrades p k = w.updateOpenTrades p k := by
  rcases hp : w.providers[p]? with _ | pr
  · have : w.updateOpenTrades p k = w := by unfold World.updateOpenTrades; rw [hp]
    rw [this, this]
  · have hi := hw.regInv
    have hget := updateOpenTrades_get hi hp k
    obtain ⟨r1, r2, r3, r4⟩ := updateOpenTrades_rest w p k
    have hq : ∀ t : Trade, (t.updateFromTick k).openedQty = t.openedQty := by
      intro t
      unfold Trade.updateFromTick Trade.update Trade.updateMinMax
      simp only
      split_ifs <;> rfl
    have ho : (w.updateOpenTrades p k).openedTrades pr = w.openedTrades pr := by
      unfold World.openedTrades
      refine List.filter_congr fun i _ => ?_
      rw [hget i]
      rcases w.trades[i]? with _ | t
      · rfl
      · simp only [Option.map_some]
        unfold Trade.closed
        split_ifs
        · rw [hq]
        · rfl
    have hs : ∀ x : World, x.providers[p]? = some pr → x.updateOpenTrades p k = { x with
        trades := (x.openedTrades pr).foldl (fun ts i => ts.modify i (fun t => t.updateFromTick k)) x.trades } := by
      intro x hx
      unfold World.updateOpenTrades
      rw [hx]
      exact foldl_world_trades _ _ _
    have h2 := hs (w.updateOpenTrades p k) (by rw [r2]; exact hp)
    rw [h2, ho]
    have h1 := congrArg World.trades (hs w hp)
    simp only at h1
    have : (w.openedTrades pr).foldl (fun ts i => ts.modify i (fun t => t.updateFromTick k)) (w.updateOpenTrades p k).trades =
        (w.updateOpenTrades p k).trades := by
      have hn := openedTrades_nodup hi.toBookInv hp
      apply List.ext_getElem?
      intro i
      rw [foldl_modify_get _ _ hn, h1, foldl_modify_get _ _ hn]
      rcases w.trades[i]? with _ | t
      · rfl
      · simp only [Option.map_some]
        split_ifs
        · rw [C90_trade]
        · rfl
    rw [this]

/-! ## Frame sets that count ticks -/

/-- Frames of a number of ticks count the repetition like any other tick: two frames of one tick each. -/
theorem C90_tick_frames : letI := Arith.exact
    ∃ (fs : FrameSet) (c : Ctx) (t : Tick), Feeds .tick 1 10 fs [] ∧ ∃ fs' fs'', fs.onNewTick c t = .ok fs' ∧ fs'.onNewTick c t = .ok fs'' ∧
      fs'.view.length = 1 ∧ fs''.view.length = 2 := by
  letI := Arith.exact
  refine ⟨⟨.tick, 1, 10, [], [], []⟩, ⟨Zone.utc, some (true, 0)⟩, Demo.tk 480 10 12, Feeds.new, _, _, rfl, rfl, ?_, ?_⟩ <;> decide +kernel

end

/-! ## Concrete cases -/

namespace Demo

/-- Four frames of a minute with indicators (one only for an open market), and ticks of which two are given twice or three times. -/
def stutter : List Cmd :=
  [.addFrameSet 0 "UT1" minutes, .addIndicator 0 "UT1" ⟨"c", .japanese, true⟩, .addIndicator 0 "UT1" ⟨"m", .sma 2, false⟩,
   .addIndicator 0 "UT1" ⟨"r", .rsi 2 none, false⟩, .addStrategy 0 0,
   .tick 0 (tk 479 10 12), .tick 0 (tk 479 10 12), .tick 0 (tk 480 11 13), .tick 0 (tk 481 9 11), .tick 0 (tk 481 9 11), .tick 0 (tk 481 9 11),
   .tick 0 (tk 482 12 14)]

/-- The same without the repetitions. -/
def smooth : List Cmd :=
  [.addFrameSet 0 "UT1" minutes, .addIndicator 0 "UT1" ⟨"c", .japanese, true⟩, .addIndicator 0 "UT1" ⟨"m", .sma 2, false⟩,
   .addIndicator 0 "UT1" ⟨"r", .rsi 2 none, false⟩, .addStrategy 0 0,
   .tick 0 (tk 479 10 12), .tick 0 (tk 480 11 13), .tick 0 (tk 481 9 11), .tick 0 (tk 482 12 14)]

end Demo

/-- C90_program: a program with repetitions meets the hypotheses. -/
theorem Demo.stutter_repeats : Spec.Repeats Demo.stutter Demo.smooth :=
  .cons _ (.cons _ (.cons _ (.cons _ (.cons _ (.again _ _ (.cons _ (.cons _ (.again _ _ (.again _ _ (.cons _ (.cons _ .nil)))))))))))

theorem Demo.stutter_timed : Spec.NewTimed Demo.stutter := by
  intro e ref fs h
  simp only [Demo.stutter, List.mem_cons, Cmd.addFrameSet.injEq, reduceCtorEq, List.not_mem_nil, or_false] at h
  obtain ⟨-, -, rfl⟩ := h
  exact ⟨.minute, 1, 10, by unfold Spec.Accepted; decide, by decide, rfl⟩

/-- The frame sets raise no exception at the command at `k`. -/
def Demo.quietAt [Arith] (k : ℕ) : Bool :=
  match Demo.stutter[k]? with
  | some (.tick e t) => match (Demo.world.runCmds Demo.quiet (Demo.stutter.take k)).epics[e]? with
    | some ep => (ep.accept { t with dt := t.dt.to ep.zone }).2.isNone
    | none => true
  | _ => true

theorem Demo.stutter_quiet : @Spec.FramesQuiet Arith.exact Demo.quiet Demo.world Demo.stutter := by
  letI := Arith.exact
  intro pre post e t ep h hg _
  have hall : ∀ k < 12, Demo.quietAt k = true := by decide +kernel
  have hlen := congrArg List.length h
  have hk : pre.length < 12 := by
    have : Demo.stutter.length = 12 := rfl
    rw [this, List.length_append, List.length_cons] at hlen
    omega
  have := hall _ hk
  unfold Demo.quietAt at this
  rw [h, List.getElem?_append_right le_rfl, Nat.sub_self, List.take_left] at this
  simp only [List.getElem?_cons_zero, hg] at this
  exact Option.isNone_iff_eq_none.mp this

/-- C90_program: the last tick, frames and indicators agree, with any strategies. -/
example (env' : Env) : letI := Arith.exact
    (Demo.world.runCmds Demo.quiet Demo.stutter).epics.map Spec.uncountedEpic =
      (Demo.world.runCmds env' Demo.smooth).epics.map Spec.uncountedEpic := by
  letI := Arith.exact
  exact C90_program _ _ Demo.world_init (by intro ep h; simp only [Demo.world, List.mem_cons, List.not_mem_nil, or_false] at h; rcases h with rfl | rfl <;> exact fun x => le_rfl) _ _ Demo.stutter_timed Demo.stutter_quiet Demo.stutter_repeats env'

/-- C90_program, C90_repeat: only the counts of the repeated ticks differ, and there are values to agree about. -/
example : letI := Arith.exact
    (Demo.world.runCmds Demo.quiet Demo.stutter).epics.map (fun ep => ep.frameSets.map (fun p => p.2.view.map Frame.nbTicks)) =
      [[[2, 1, 3, 1]], []] ∧
    (Demo.world.runCmds Demo.quiet Demo.smooth).epics.map (fun ep => ep.frameSets.map (fun p => p.2.view.map Frame.nbTicks)) =
      [[[1, 1, 1, 1]], []] ∧
    (Demo.world.runCmds Demo.quiet Demo.stutter).epics.map (fun ep => ep.frameSets.map (fun p => p.2.view.map (fun f => f.inds.length))) =
      [[[3, 3, 3, 3]], []] := by
  letI := Arith.exact
  decide +kernel

/-- C90_trade: an open trade. -/
example : letI := Arith.exact
    let t := Trade.new .buy 2 11 (Demo.tk 480 10 11).dt 0 (some 10) none
    (t.updateFromTick (Demo.tk 480 14 15)).result = 6 ∧ (t.updateFromTick (Demo.tk 480 14 15)).maxRes = 6 := by
  letI := Arith.exact
  decide +kernel

/-- C90_open_trades: a provider with an open trade, which a new tick revalues. -/
example : letI := Arith.exact
    let w := Demo.world.runCmds Demo.quiet [.addStrategy 0 0, .tick 0 (Demo.tk 480 10 12), .op (.openTrade 0 (some 0) (some .buy) 3)]
    Reachable Demo.quiet w ∧ w.trades.map Trade.result = [-6] ∧ (w.updateOpenTrades 0 (Demo.tk 481 13 15)).trades.map Trade.result = [3] ∧
      (w.updateOpenTrades 0 (Demo.tk 481 13 15)).updateOpenTrades 0 (Demo.tk 481 13 15) = w.updateOpenTrades 0 (Demo.tk 481 13 15) := by
  letI := Arith.exact
  exact ⟨Demo.reachable _ _, by decide +kernel, by decide +kernel, C90_open_trades _ _ (Demo.reachable Demo.quiet _) _ _⟩

/-- C90_accepted: a new epic. -/
example : ∃ ep, Demo.world.epics[0]? = some ep ∧ ((Demo.tk 480 10 12).dt.to ep.zone).lt ep.lastTick.dt = false :=
  ⟨_, rfl, by decide +kernel⟩

end Estrade
