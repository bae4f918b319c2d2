import Verif.Props.Books
import Verif.Props.Marked

/-!
# C110: no strategy gains more per unit than the quotes allow
-/

set_option autoImplicit false
set_option linter.style.haveILetI false
set_option linter.unusedSectionVars false

namespace Estrade
section
variable [Arith]

/-! ## Where the values of trades come from -/

/-- The value is the open value of the trade or the closing side of an accepted tick of an epic with the same provider (`PR`: providers of the epics). -/
def ValueFrom (PR : List ℕ) (L : List Event) (t : Trade) (v : ℚ) : Prop :=
  v = t.openValue ∨ ∃ e k, Event.accepted e k ∈ L ∧ PR[e]? = PR[t.epic]? ∧ v = Spec.exitQuote t.dir k

/-- The trade was opened on the placeholder, or on an accepted tick of its epic, and its values come from ticks. -/
def Priced (PR : List ℕ) (L : List Event) (t : Trade) : Prop :=
  t.dt = Tick.epoch.dt ∨ ((∃ k, Event.accepted t.epic k ∈ L ∧ t.openValue = Spec.entryQuote t.dir k) ∧ ValueFrom PR L t t.curClose ∧
    ∀ c ∈ t.closes, ValueFrom PR L t c.closeValue)

/-- The last tick of an epic is the last accepted one. -/
def ShownLast (E : List Epic) (L : List Event) : Prop :=
  ∀ (e : ℕ) ep, E[e]? = some ep → (ep.lastTick = Tick.epoch ∧ ∀ k, Event.accepted e k ∉ L) ∨ Event.accepted e ep.lastTick ∈ L

theorem ValueFrom.congr {PR : List ℕ} {L L' : List Event} {t t' : Trade} {v : ℚ} (h : ValueFrom PR L t v) (hL : ∀ x ∈ L, x ∈ L')
    (h1 : t'.openValue = t.openValue) (h2 : t'.dir = t.dir) (h3 : t'.epic = t.epic) : ValueFrom PR L' t' v := by
  unfold ValueFrom at *
  rw [h1, h2, h3]
  rcases h with h | ⟨e, k, a, b⟩
  · exact .inl h
  · exact .inr ⟨e, k, hL _ a, b⟩

theorem Priced.congr {PR : List ℕ} {L L' : List Event} {t t' : Trade} (h : Priced PR L t) (hL : ∀ x ∈ L, x ∈ L') (h0 : t'.dt = t.dt)
    (h1 : t'.openValue = t.openValue) (h2 : t'.dir = t.dir) (h3 : t'.epic = t.epic) (h4 : ValueFrom PR L' t' t'.curClose ∨ t'.curClose = t.curClose)
    (h5 : ∀ c ∈ t'.closes, ValueFrom PR L' t' c.closeValue ∨ ∃ c' ∈ t.closes, c'.closeValue = c.closeValue) : Priced PR L' t' := by
  rcases h with h | ⟨⟨k, a, a'⟩, b, c⟩
  · exact .inl (h0.trans h)
  · refine .inr ⟨⟨k, by rw [h3]; exact hL _ a, by rw [h1, h2]; exact a'⟩, ?_, ?_⟩
    · rcases h4 with h4 | h4
      · exact h4
      · rw [h4]; exact b.congr hL h1 h2 h3
    · intro x hx
      rcases h5 x hx with h5 | ⟨c', g1, g2⟩
      · exact h5
      · rw [← g2]; exact (c c' g1).congr hL h1 h2 h3

/-- Valuing a trade at an accepted tick of its provider. -/
theorem Priced.update {PR : List ℕ} {L : List Event} {t : Trade} (h : Priced PR L t) {e : ℕ} {k : Tick} (hk : Event.accepted e k ∈ L)
    (he : PR[e]? = PR[t.epic]?) : Priced PR L (t.update (Spec.exitQuote t.dir k)) := by
  have hf := kept_update t (Spec.exitQuote t.dir k)
  obtain ⟨f1, f2, f3, f4, f5⟩ : (t.update (Spec.exitQuote t.dir k)).dt = t.dt ∧ (t.update (Spec.exitQuote t.dir k)).openValue = t.openValue ∧
    (t.update (Spec.exitQuote t.dir k)).dir = t.dir ∧ (t.update (Spec.exitQuote t.dir k)).closes = t.closes ∧
    (t.update (Spec.exitQuote t.dir k)).epic = t.epic := by
    unfold Trade.update Trade.updateMinMax
    dsimp only
    split_ifs <;> exact ⟨rfl, rfl, rfl, rfl, rfl⟩
  refine h.congr (fun _ hx => hx) f1 f2 f3 f5 ?_ ?_
  · rw [Trade.update_curClose]
    split_ifs
    · exact .inr rfl
    · exact .inl (.inr ⟨e, k, hk, by rw [f5]; exact he, by rw [f3]⟩)
  · intro c hc
    rw [f4] at hc
    exact .inr ⟨c, hc, rfl⟩

theorem priced_quoteInv {PR : List ℕ} {E : List Epic} {L : List Event} (hE : ShownLast E L) : QuoteInv False E (Priced PR L) := by
  refine ⟨?_, ?_, fun v => v.elim, ?_, ?_⟩
  · intro e ep d q s t n hep ht _ _
    unfold Trade.openFromTick at ht
    rcases hE e ep hep with ⟨h1, -⟩ | h1
    · left
      split at ht
      · injection ht with ht; subst ht; rw [h1]; rfl
      · injection ht with ht; subst ht; rw [h1]; rfl
      · cases ht
    · right
      split at ht
      · injection ht with ht; subst ht
        refine ⟨⟨_, h1, rfl⟩, ?_, fun c hc => (by cases hc)⟩
        unfold ValueFrom Trade.new
        dsimp only
        by_cases h0 : ep.lastTick.bid = 0
        · rw [if_pos h0]; exact .inl rfl
        · rw [if_neg h0]; exact .inr ⟨_, _, h1, rfl, rfl⟩
      · injection ht with ht; subst ht
        refine ⟨⟨_, h1, rfl⟩, ?_, fun c hc => (by cases hc)⟩
        unfold ValueFrom Trade.new
        dsimp only
        by_cases h0 : ep.lastTick.ask = 0
        · rw [if_pos h0]; exact .inl rfl
        · rw [if_neg h0]; exact .inr ⟨_, _, h1, rfl, rfl⟩
      · cases ht
  · intro t ep q hep _ h
    by_cases h0 : t.dt = Tick.epoch.dt
    · left
      unfold Trade.closeFromTick
      rw [updateFromTick_eq]
      have : (t.update (Spec.exitQuote t.dir ep.lastTick)).dt = t.dt := by
        unfold Trade.update Trade.updateMinMax
        dsimp only
        split_ifs <;> rfl
      exact this.trans h0
    · have hlast : Event.accepted t.epic ep.lastTick ∈ L := by
        rcases hE t.epic ep hep with ⟨-, h1⟩ | h1
        · rcases h with h | ⟨⟨k, hk, -⟩, -⟩
          · exact absurd h h0
          · exact absurd hk (h1 k)
        · exact h1
      have hu := h.update hlast rfl
      unfold Trade.closeFromTick
      rw [updateFromTick_eq]
      set u := t.update (Spec.exitQuote t.dir ep.lastTick)
      dsimp only
      refine hu.congr (fun _ hx => hx) rfl rfl rfl rfl (.inr rfl) ?_
      intro c hc
      unfold Trade.close at hc
      rcases List.mem_append.mp hc with hc | hc
      · exact .inr ⟨c, hc, rfl⟩
      · rw [List.mem_singleton.mp hc]
        rcases hu with hu | ⟨-, hu, -⟩
        · exfalso
          apply h0
          rw [← hu]
          show t.dt = (t.update _).dt
          unfold Trade.update Trade.updateMinMax
          dsimp only
          split_ifs <;> rfl
        · exact .inl (hu.congr (fun _ hx => hx) rfl rfl rfl)
  · intro t st h
    exact h.congr (fun _ hx => hx) rfl rfl rfl rfl (.inr rfl) (fun c hc => .inr ⟨c, hc, rfl⟩)
  · intro t k st h
    refine h.congr (fun _ hx => hx) rfl rfl rfl rfl (.inr rfl) ?_
    intro c hc
    exact .inr (mem_modify_inv (P := fun c : TradeClose => ∃ c' ∈ t.closes, c'.closeValue = c.closeValue) (fun c hc => ⟨c, hc, rfl⟩) k
      (fun c => { c with status := st }) (fun _ _ h => h) c hc)

/-- What is kept along a run. -/
structure PricedInv (PR : List ℕ) (w : World) : Prop where
  providers : w.epics.map Epic.provider = PR
  shown : ShownLast w.epics w.log
  priced : ∀ t ∈ w.trades, Priced PR w.log t

theorem step_priced {PR : List ℕ} (w : World) (o : Op) (ho : o.Indirect ∧ o.Valid) (hw : PricedInv PR w) : PricedInv PR (w.step o).1 := by
  obtain ⟨h1, h2⟩ := step_epics w o
  refine ⟨by rw [h1]; exact hw.providers, by rw [h1, h2]; exact hw.shown, ?_⟩
  rw [h2]
  refine step_quote (priced_quoteInv hw.shown) rfl hw.priced o ho.1.notDirect ?_ (fun v => v.elim)
  intro i v he
  subst he
  exact absurd ho.1 id

theorem note_priced {PR : List ℕ} (w : World) (s e : ℕ) (cb : Cb) (hw : PricedInv PR w) :
    PricedInv PR { w with log := w.log ++ [.notify s e cb] } := by
  refine ⟨hw.providers, ?_, fun t ht => ?_⟩
  · intro e' ep hep
    rcases hw.shown e' ep hep with ⟨a, b⟩ | a
    · refine .inl ⟨a, fun k hk => ?_⟩
      rcases List.mem_append.mp hk with hk | hk
      · exact b k hk
      · cases List.mem_singleton.mp hk
    · exact .inr (List.mem_append_left _ a)
  · exact (hw.priced t ht).congr (fun x hx => List.mem_append_left _ hx) rfl rfl rfl rfl (.inr rfl) (fun c hc => .inr ⟨c, hc, rfl⟩)

/-- The state in which the callbacks of an accepted tick start. -/
theorem accept_priced {PR : List ℕ} {w : World} (hr : RegInv w) (hok : EpicsOk w) (hw : PricedInv PR w) {e : ℕ} {ep : Epic} {k : Tick}
    (hep : w.epics[e]? = some ep) :
    let w0 : World := { w with epics := w.epics.set e (ep.accept k).1, log := w.log ++ [.accepted e k] }
    PricedInv PR w0 ∧ PricedInv PR (w0.updateOpenTrades ep.provider k) := by
  intro w0
  have hmap : (w.epics.set e (ep.accept k).1).map Epic.provider = w.epics.map Epic.provider := map_provider_set _ _ _ _ hep rfl
  have h0 : PricedInv PR w0 := by
    refine ⟨hmap.trans hw.providers, ?_, fun t ht => ?_⟩
    · intro e' x hx
      change (w.epics.set e (ep.accept k).1)[e']? = some x at hx
      rw [List.getElem?_set] at hx
      by_cases hee : e = e'
      · subst hee
        rw [if_pos rfl, if_pos (getElem?_lt hep)] at hx
        injection hx with hx
        subst hx
        exact .inr (List.mem_append_right _ (List.mem_singleton_self _))
      · rw [if_neg hee] at hx
        rcases hw.shown e' x hx with ⟨a, b⟩ | a
        · refine .inl ⟨a, fun k' hk => ?_⟩
          rcases List.mem_append.mp hk with hk | hk
          · exact b k' hk
          · have := List.mem_singleton.mp hk
            injection this with g1 g2
            exact hee g1.symm
        · exact .inr (List.mem_append_left _ a)
    · exact (hw.priced t ht).congr (fun x hx => List.mem_append_left _ hx) rfl rfl rfl rfl (.inr rfl) (fun c hc => .inr ⟨c, hc, rfl⟩)
  refine ⟨h0, ?_⟩
  obtain ⟨pr, hpr⟩ : ∃ pr, w.providers[ep.provider]? = some pr :=
    ⟨_, List.getElem?_eq_getElem (hok ep (List.mem_of_getElem? hep))⟩
  have hreg0 : RegInv w0 := hr.quiet ⟨rfl, rfl, rfl, KeptAll.refl _⟩ hmap
  obtain ⟨r1, r2⟩ := updateOpenTrades_epics w0 ep.provider k
  refine ⟨by rw [r1]; exact h0.providers, by rw [r1, r2]; exact h0.shown, ?_⟩
  rw [r2]
  intro t' ht'
  obtain ⟨i, hi⟩ := List.getElem?_of_mem ht'
  rw [updateOpenTrades_get hreg0 (show w0.providers[ep.provider]? = some pr from hpr)] at hi
  rcases hti : w0.trades[i]? with _ | t
  · rw [hti] at hi; cases hi
  · rw [hti] at hi
    simp only [Option.map_some, Option.some.injEq] at hi
    have ht := h0.priced t (List.mem_of_getElem? hti)
    by_cases hm : i ∈ pr.trades ∧ t.openedQty ≠ 0
    · rw [if_pos hm] at hi
      subst hi
      rw [updateFromTick_eq]
      refine ht.update (List.mem_append_right _ (List.mem_singleton_self _)) ?_
      have hp := hr.provOf i t _ pr hti hpr hm.1
      unfold World.providerOf at hp
      rw [← hw.providers, List.getElem?_map, List.getElem?_map, hep]
      rcases hte : w.epics[t.epic]? with _ | ep'
      · rw [hte] at hp; cases hp
      · rw [hte] at hp
        simp only [Option.map_some] at hp ⊢
        exact hp.symm
    · rw [if_neg hm] at hi
      subst hi
      exact ht

theorem exec_priced {PR : List ℕ} {env : Env} (henv : ∀ s cb e w, (env s cb e w).All (fun o => o.Indirect ∧ o.Valid)) (w : World) (c : Cmd)
    (hop : ∀ o, c = .op o → o.Indirect ∧ o.Valid) (hr : RegInv w) (hok : EpicsOk w) (hw : PricedInv PR w) : PricedInv PR (w.exec env c).1 := by
  by_cases hc : ∀ e t, c ≠ .tick e t
  · by_cases hc' : ∃ o, c = .op o
    · obtain ⟨o, rfl⟩ := hc'
      exact step_priced w o (hop o rfl) hw
    · obtain ⟨h1, h2⟩ := exec_other env w c hc
      obtain ⟨g1, g2, -, -⟩ := exec_registration env w c hc hc'
      refine ⟨g2.trans hw.providers, ?_, by rw [g1, h1]; exact hw.priced⟩
      rw [h1]
      intro e x hx
      obtain ⟨y, hy, hxy⟩ := h2.back hx
      rw [hxy.last]
      exact hw.shown e y hy
  · push Not at hc
    obtain ⟨e, k, rfl⟩ := hc
    show PricedInv PR (w.onNewTick env e k).1
    unfold World.onNewTick
    split
    · exact hw
    · rename_i ep hep
      dsimp only
      split_ifs with hlt
      · exact hw
      · obtain ⟨a, b⟩ := accept_priced hr hok hw (k := { k with dt := k.dt.to ep.zone }) hep
        split
        · exact a
        · exact execStrategies_inv (J := PricedInv PR) (Q := fun o => o.Indirect ∧ o.Valid) step_priced note_priced
            (fun u s st st' _ _ hu => ⟨hu.providers, hu.shown, hu.priced⟩) henv _ _ _ _ _ b

theorem run_priced {env : Env} {w0 : World} (h0 : w0.Init) {l : List Cmd} (hd : Spec.Delegates env l) :
    PricedInv (w0.epics.map Epic.provider) (w0.runCmds env l) := by
  have key : ∀ (l : List Cmd) (w : World), (∀ o, Cmd.op o ∈ l → o.Indirect ∧ o.Valid) → RegInv w → EpicsOk w →
      PricedInv (w0.epics.map Epic.provider) w → PricedInv (w0.epics.map Epic.provider) (w.runCmds env l) := by
    intro l
    induction l with
    | nil => intro w _ _ _ hw; exact hw
    | cons c l ih =>
      intro w ho hr hok hw
      have hs := exec_steps (V := False) (env := env) (fun v => v.elim) w hok c (fun v => v.elim)
      exact ih _ (fun o h => ho o (by simp [h])) (WSteps.inv (fun a b ha hb => hb.regInv ha) hs hr) (hs.epicsOk hok)
        (exec_priced hd.callbacks w c (fun o h => ho o (by simp [h])) hr hok hw)
  refine key l w0 hd.ops (Init.regInv h0) (Init.epicsOk h0) ⟨rfl, ?_, ?_⟩
  · intro e ep hep
    obtain ⟨ref, z, o, c, td, hh, p, -, rfl⟩ := h0.epics ep (List.mem_of_getElem? hep)
    refine .inl ⟨rfl, fun k hk => ?_⟩
    rw [h0.log] at hk
    cases hk
  · intro t ht
    rw [h0.trades] at ht
    cases ht

/-! ## The theorems -/

/-- Spec: the epics trade with the same provider. -/
def Spec.sameProvider (w : World) (e e' : ℕ) : Prop := (w.epics[e]?).map Epic.provider = (w.epics[e']?).map Epic.provider

/-- Spec: the gain of a unit bought on one tick and sold on another, of epics related by `same`, is at least `lo` and at most `hi`. -/
def Spec.UnitGains (same : World → ℕ → ℕ → Prop) (w : World) (lo hi : ℚ) : Prop :=
  ∀ e k e' k', Event.accepted e k ∈ w.log → Event.accepted e' k' ∈ w.log → same w e e' → lo ≤ k.bid - k'.ask ∧ k.bid - k'.ask ≤ hi

/-- C110 as a statement: if no bid is above any ask (of ticks of epics related by `same`), no strategy has a positive result; under `late`, none of its trades
was opened before the first tick of its epic. -/
def Spec.C110 (same : World → ℕ → ℕ → Prop) (late : Prop) : Prop :=
  ∀ (env : Env) (w0 : World), w0.Init → ∀ l : List Cmd, Spec.Delegates env l → ∀ (s : ℕ) (st : Strategy), (w0.runCmds env l).strategies[s]? = some st →
  (late → ∀ i ∈ st.trades, ∀ t, (w0.runCmds env l).trades[i]? = some t → t.dt ≠ Tick.epoch.dt) →
  (∃ lo, Spec.UnitGains same (w0.runCmds env l) lo 0) →
  strategyResult (st.trades.filterMap (fun i => (w0.runCmds env l).trades[i]?)) .none ≤ 0

/-- Every unit of a trade gained within the bounds. -/
theorem moves_between {env : Env} {w0 : World} (h0 : w0.Init) {l : List Cmd} (hd : Spec.Delegates env l) {lo hi : ℚ} (hlo : lo ≤ 0) (hhi : 0 ≤ hi)
    (hg : Spec.UnitGains Spec.sameProvider (w0.runCmds env l) lo hi) {t : Trade} (ht : t ∈ (w0.runCmds env l).trades) (hdt : t.dt ≠ Tick.epoch.dt) :
    ∀ v, (v = t.curClose ∨ ∃ c ∈ t.closes, v = c.closeValue) →
      lo ≤ Spec.move t.dir t.openValue v ∧ Spec.move t.dir t.openValue v ≤ hi := by
  have hP := run_priced h0 hd
  rcases hP.priced t ht with h | ⟨⟨k0, a, a'⟩, b, c⟩
  · exact absurd h hdt
  intro v hv
  have hval : ValueFrom (w0.epics.map Epic.provider) (w0.runCmds env l).log t v := by
    rcases hv with rfl | ⟨x, hx, rfl⟩
    · exact b
    · exact c x hx
  rcases hval with rfl | ⟨e, k, hk, he, rfl⟩
  · have : Spec.move t.dir t.openValue t.openValue = 0 := by
      unfold Spec.move; cases t.dir <;> simp
    rw [this]
    exact ⟨hlo, hhi⟩
  · have hs : Spec.sameProvider (w0.runCmds env l) e t.epic := by
      unfold Spec.sameProvider
      rw [← hP.providers, List.getElem?_map, List.getElem?_map] at he
      exact he
    rw [a']
    have g1 := hg e k t.epic k0 hk a hs
    have g2 := hg t.epic k0 e k a hk hs.symm
    unfold Spec.move Spec.entryQuote Spec.exitQuote
    cases t.dir
    · exact g1
    · exact g2

theorem fl_nonpos {x : ℚ} (h : x ≤ 0) : fl x ≤ 0 := by
  have := fl_mono h
  rwa [fl_zero] at this

theorem rnd_nonpos {x : ℚ} (h : x ≤ 0) : rnd x ≤ 0 := by
  have := rnd_mono h
  rwa [rnd_zero] at this

theorem foldl_fadd_nonpos (l : List ℚ) : ∀ a, a ≤ 0 → (∀ x ∈ l, x ≤ 0) → l.foldl fadd a ≤ 0 := by
  induction l with
  | nil => intro a ha _; exact ha
  | cons x l ih =>
    intro a ha h
    rw [List.foldl_cons]
    refine ih _ (fl_nonpos ?_) (fun y hy => h y (List.mem_cons_of_mem _ hy))
    have := h x (by simp)
    linarith

theorem result_nonpos {t : Trade} (h1 : 0 ≤ t.openedQty) (h2 : ∀ c ∈ t.closes, 0 ≤ c.qty)
    (h : ∀ v, (v = t.curClose ∨ ∃ c ∈ t.closes, v = c.closeValue) → Spec.move t.dir t.openValue v ≤ 0) : t.result ≤ 0 := by
  rw [C23_result_in_floats]
  refine fl_nonpos (add_nonpos ?_ ?_)
  · split_ifs
    · exact le_refl _
    · refine fl_nonpos (mul_nonpos_of_nonpos_of_nonneg (rnd_nonpos (fl_nonpos (h _ (.inl rfl)))) ?_)
      unfold Trade.openedQty Trade.closedQty at h1
      exact_mod_cast h1
  · refine foldl_fadd_nonpos _ _ (le_refl _) ?_
    intro x hx
    obtain ⟨c, hc, rfl⟩ := List.mem_map.mp hx
    refine rnd_nonpos (fl_nonpos (mul_nonpos_of_nonpos_of_nonneg (rnd_nonpos (fl_nonpos (h _ (.inr ⟨c, hc, rfl⟩)))) ?_))
    exact_mod_cast h2 c hc

/-- C110 in every float format: if no bid is above any ask of the ticks accepted by the epics of one provider, no strategy has a positive result, whatever it
does. -/
theorem C110_no_free_lunch : Spec.C110 Spec.sameProvider True := by
  intro env w0 h0 l hd s st _ hlate ⟨lo, hg⟩
  have hv : Spec.ValidRun env (w0.runCmds env l) := ⟨w0, h0, hd.env_valid, l, hd.cmd_valid, rfl⟩
  have hg' : Spec.UnitGains Spec.sameProvider (w0.runCmds env l) (min lo 0) 0 :=
    fun e k e' k' a b c => ⟨(min_le_left _ _).trans (hg e k e' k' a b c).1, (hg e k e' k' a b c).2⟩
  rw [C37_result_in_floats _ _ (by simp)]
  refine rnd_nonpos (foldl_fadd_nonpos _ _ (le_refl _) ?_)
  intro x hx
  obtain ⟨t, ht, rfl⟩ := List.mem_map.mp hx
  obtain ⟨i, hi, hti⟩ := List.mem_filterMap.mp ht
  have htm := List.mem_of_getElem? hti
  obtain ⟨q1, -, q3⟩ := hv.quantities t htm
  exact result_nonpos q1 q3 fun v hx => (moves_between h0 hd (min_le_right _ _) (le_refl 0) hg' htm (hlate trivial i hi t hti) v hx).2

/-- C110 (exact arithmetic): the result of a strategy lies between the worst and the best gain of a unit, to the cent, times the units it opened. -/
theorem C110_between (hE : Exact) {env : Env} {w0 : World} (h0 : w0.Init) {l : List Cmd} (hd : Spec.Delegates env l) {lo hi : ℚ} (hlo : lo ≤ 0)
    (hhi : 0 ≤ hi) (hg : Spec.UnitGains Spec.sameProvider (w0.runCmds env l) lo hi) {st : Strategy}
    (hlate : ∀ i ∈ st.trades, ∀ t, (w0.runCmds env l).trades[i]? = some t → t.dt ≠ Tick.epoch.dt) :
    let own := st.trades.filterMap (fun i => (w0.runCmds env l).trades[i]?)
    cent lo * (own.map Trade.openQty).sum ≤ strategyResult own .none ∧ strategyResult own .none ≤ cent hi * (own.map Trade.openQty).sum := by
  intro own
  have hv : Spec.ValidRun env (w0.runCmds env l) := ⟨w0, h0, hd.env_valid, l, hd.cmd_valid, rfl⟩
  have hone : ∀ t ∈ own, cent lo * t.openQty ≤ t.result ∧ t.result ≤ cent hi * t.openQty := by
    intro t ht
    obtain ⟨i, hi', hti⟩ := List.mem_filterMap.mp ht
    have htm := List.mem_of_getElem? hti
    obtain ⟨q1, -, q3⟩ := hv.quantities t htm
    have hm := moves_between h0 hd hlo hhi hg htm (hlate i hi' t hti)
    have hsum : ∀ cs : List TradeClose, (∀ c ∈ cs, c ∈ t.closes) →
        cent lo * (cs.map TradeClose.qty).sum ≤ (cs.map (fun c => (c.qty : ℚ) * cent (Spec.move t.dir t.openValue c.closeValue))).sum ∧
        (cs.map (fun c => (c.qty : ℚ) * cent (Spec.move t.dir t.openValue c.closeValue))).sum ≤ cent hi * (cs.map TradeClose.qty).sum := by
      intro cs
      induction cs with
      | nil => intro _; simp
      | cons c cs ih =>
        intro hc
        obtain ⟨i1, i2⟩ := ih (fun x hx => hc x (List.mem_cons_of_mem _ hx))
        obtain ⟨m1, m2⟩ := hm c.closeValue (.inr ⟨c, hc c (by simp), rfl⟩)
        have hq : (0 : ℚ) ≤ c.qty := by exact_mod_cast q3 c (hc c (by simp))
        have m1' := mul_le_mul_of_nonneg_left (cent_mono m1) hq
        have m2' := mul_le_mul_of_nonneg_left (cent_mono m2) hq
        simp only [List.map_cons, List.sum_cons]
        push_cast
        constructor <;> nlinarith
    obtain ⟨s1, s2⟩ := hsum t.closes (fun _ h => h)
    obtain ⟨m1, m2⟩ := hm t.curClose (.inl rfl)
    have hq : (0 : ℚ) ≤ t.openedQty := by exact_mod_cast q1
    have m1' := mul_le_mul_of_nonneg_left (cent_mono m1) hq
    have m2' := mul_le_mul_of_nonneg_left (cent_mono m2) hq
    have hr : t.result = (t.closes.map (fun c => (c.qty : ℚ) * cent (Spec.move t.dir t.openValue c.closeValue))).sum +
        t.openedQty * cent (Spec.move t.dir t.openValue t.curClose) := by
      rw [result_exact hE]
      unfold Trade.closedResult
      rw [fsum_exact hE]
      congr 2
      exact List.map_congr_left fun c _ => avg_exact hE _ _ c
    have hQ : (t.openQty : ℚ) = (t.closes.map TradeClose.qty).sum + t.openedQty := by
      unfold Trade.openedQty Trade.closedQty
      push_cast
      ring
    rw [hr, hQ]
    constructor <;> nlinarith
  rw [strategyResult_total hE]
  clear_value own
  unfold Spec.total
  induction own with
  | nil => simp
  | cons t own ih =>
    obtain ⟨i1, i2⟩ := ih (fun x hx => hone x (List.mem_cons_of_mem _ hx))
    obtain ⟨h1, h2⟩ := hone t (by simp)
    simp only [List.map_cons, List.sum_cons]
    push_cast
    constructor <;> nlinarith

end

/-! ## Concrete cases -/

/-- A check of the unit gains. -/
def Demo.gains (same : World → ℕ → ℕ → Bool) (w : World) (lo hi : ℚ) : Bool :=
  w.log.all (fun a => w.log.all (fun b => match a, b with
    | .accepted e k, .accepted e' k' => !same w e e' || decide (lo ≤ k.bid - k'.ask ∧ k.bid - k'.ask ≤ hi)
    | _, _ => true))

theorem Demo.gains_spec {f : World → ℕ → ℕ → Bool} {same : World → ℕ → ℕ → Prop} (hf : ∀ w e e', same w e e' → f w e e' = true) {w : World} {lo hi : ℚ}
    (h : Demo.gains f w lo hi = true) : Spec.UnitGains same w lo hi := by
  intro e k e' k' a b c
  unfold Demo.gains at h
  rw [List.all_eq_true] at h
  have := h _ a
  rw [List.all_eq_true] at this
  have := this _ b
  simpa [hf w e e' c] using this

theorem Demo.quiet_delegates {l : List Cmd} (h : ∀ o, Cmd.op o ∈ l → o.Indirect ∧ o.Valid) : Spec.Delegates Demo.quiet l :=
  ⟨fun _ _ _ _ => trivial, h⟩

/-- Buying and selling in a market that moves less than its spread: every strategy loses. -/
def Demo.narrow : List Cmd :=
  [.tick 0 (Demo.tk 480 10 12), .tick 1 (Demo.tk 480 20 22), .op (.openTrade 0 (some 0) (some .buy) 5), .op (.openTrade 1 (some 0) (some .sell) 2),
   .tick 0 (Demo.tk 481 11 13), .op (.closeTrade 0 0 (some 2)), .tick 1 (Demo.tk 481 21 23), .tick 0 (Demo.tk 482 12 14)]

theorem Demo.narrow_ops : ∀ o, Cmd.op o ∈ Demo.narrow → o.Indirect ∧ o.Valid := by
  intro o ho
  simp only [Demo.narrow, List.mem_cons, List.not_mem_nil, or_false, reduceCtorEq, false_or, Cmd.op.injEq] at ho
  rcases ho with rfl | rfl | rfl <;> exact ⟨trivial, by simp [Op.Valid, QOk]⟩

/-- The hypotheses of C110 hold in that run; the result is -8. -/
example : letI := Arith.exact
    Spec.UnitGains Spec.sameProvider (Demo.twoBrokers.runCmds Demo.quiet Demo.narrow) (-4) 0 ∧ Spec.Delegates Demo.quiet Demo.narrow ∧
    (∀ t ∈ (Demo.twoBrokers.runCmds Demo.quiet Demo.narrow).trades, t.dt ≠ Tick.epoch.dt) ∧
    strategyResult (Spec.tradesOf (Demo.twoBrokers.runCmds Demo.quiet Demo.narrow) 0) .none = -8 := by
  letI := Arith.exact
  refine ⟨Demo.gains_spec (f := fun w e e' => decide ((w.epics[e]?).map Epic.provider = (w.epics[e']?).map Epic.provider))
    (fun _ _ _ h => decide_eq_true h) (by decide +kernel), Demo.quiet_delegates Demo.narrow_ops, by decide +kernel, by decide +kernel⟩

/-- A position on one of two epics that share a provider, and a tick of the other. -/
def Demo.foreign : List Cmd :=
  [.tick 0 (Demo.tk 480 10 12), .op (.openTrade 0 (some 0) (some .buy) 5), .tick 1 (Demo.tk 481 100 102)]

/-- C110 fails if only ticks of the same epic are compared: ticks of other epics of the provider value the trade. -/
theorem C110_epic_false : ¬ @Spec.C110 Arith.exact (fun _ e e' => e = e') True := by
  letI := Arith.exact
  intro h
  have := h Demo.quiet Demo.world Demo.world_init Demo.foreign (Demo.quiet_delegates (by
    intro o ho
    simp only [Demo.foreign, List.mem_cons, List.not_mem_nil, or_false, reduceCtorEq, false_or, Cmd.op.injEq] at ho
    subst ho
    exact ⟨trivial, by simp [Op.Valid]⟩)) 0 _ (List.getElem?_eq_getElem (by decide +kernel)) (fun _ i _ t ht => by
      have h2 : ∀ t ∈ (Demo.world.runCmds Demo.quiet Demo.foreign).trades, t.dt ≠ Tick.epoch.dt := by decide +kernel
      exact h2 t (List.mem_of_getElem? ht))
    ⟨-2, Demo.gains_spec (f := fun _ e e' => decide (e = e')) (fun _ _ _ h => decide_eq_true h) (by decide +kernel)⟩
  revert this
  decide +kernel

/-- A position opened before the first tick. -/
def Demo.openedEarly : List Cmd := [.op (.openTrade 0 (some 0) (some .buy) 5), .tick 0 (Demo.tk 480 10 12)]

/-- C110 fails for trades opened before the first tick, at the placeholder 0. -/
theorem C110_placeholder_false : ¬ @Spec.C110 Arith.exact Spec.sameProvider False := by
  letI := Arith.exact
  intro h
  have := h Demo.quiet Demo.world Demo.world_init Demo.openedEarly (Demo.quiet_delegates (by
    intro o ho
    simp only [Demo.openedEarly, List.mem_cons, List.not_mem_nil, or_false, reduceCtorEq, Cmd.op.injEq] at ho
    subst ho
    exact ⟨trivial, by simp [Op.Valid]⟩)) 0 _ (List.getElem?_eq_getElem (by decide +kernel)) (fun x => x.elim)
    ⟨-2, Demo.gains_spec (f := fun _ _ _ => true) (fun _ _ _ _ => rfl) (by decide +kernel)⟩
  revert this
  decide +kernel

end Estrade
