import Verif.Requote
import Verif.Props.Marked
import Verif.Lemmas.StopLoss

/-!
# C106: recorded extremes and revaluation of the trades of a running system
-/

set_option linter.style.haveILetI false
set_option linter.unusedSectionVars false
set_option autoImplicit false

namespace Estrade
section
variable [Arith]

/-! ## Extremes -/

/-- Spec: the result is between the recorded extremes. -/
def Spec.Between (t : Trade) : Prop := t.minRes ≤ t.result ∧ t.result ≤ t.maxRes

/-- Spec: nothing of the trade was closed, and its result has been recorded once. -/
def Spec.Untried (t : Trade) : Prop := t.minRes = t.maxRes ∧ ∀ c ∈ t.closes, c.qty = 0

/-- Spec: a program that closes trades through epics, strategies and providers only, and gives no negative quantities. -/
structure Spec.ClosesByApi (env : Env) (l : List Cmd) : Prop where
  callbacks : ∀ s cb e w, (env s cb e w).All (fun o => o.NotDirect ∧ o.Valid)
  ops : ∀ o, Cmd.op o ∈ l → o.NotDirect ∧ o.Valid

/-- Spec: the accepted ticks have bid <= ask. -/
def Spec.OrderedLog (log : List Event) : Prop := ∀ e k, Event.accepted e k ∈ log → k.bid ≤ k.ask

/-- C106 as stated: the result of every trade is between its recorded extremes. -/
def Spec.C106 : Prop :=
  ∀ (env : Env) (w0 : World) (l : List Cmd), w0.Init → Spec.ClosesByApi env l → Spec.OrderedLog (w0.runCmds env l).log →
  ∀ t ∈ (w0.runCmds env l).trades, Spec.Between t

/-- What holds of all trades. -/
structure Recorded (t : Trade) : Prop where
  qty : 0 ≤ t.openedQty
  low : t.minRes ≤ t.result
  high : t.result ≤ t.maxRes ∨ Spec.Untried t

theorem update_between {t : Trade} (h : t.openedQty ≠ 0) (v : ℚ) : Spec.Between (t.update v) := by
  have hc : ¬ t.closed = true := fun hc => h (t.closed_iff.mp hc)
  obtain ⟨h1, h2⟩ := update_minmax t v
  rw [if_neg hc] at h1 h2
  unfold Spec.Between
  rw [h1, h2]
  exact ⟨min_le_right _ _, le_max_right _ _⟩

theorem Recorded.update {t : Trade} (h : Recorded t) (v : ℚ) : Recorded (t.update v) := by
  by_cases h0 : t.openedQty = 0
  · rw [Trade.update_closed t (t.closed_iff.mpr h0)]; exact h
  · obtain ⟨h1, h2⟩ := update_between h0 v
    exact ⟨by rw [Trade.update_openedQty]; exact h.qty, h1, .inl h2⟩

theorem recorded_quoteInv (hE : Exact) {E : List Epic} (hq : ∀ ep ∈ E, ep.lastTick.bid ≤ ep.lastTick.ask) : QuoteInv True E Recorded := by
  refine ⟨?_, ?_, fun _ t h => h.qty, ?_, ?_⟩
  · intro e ep d q s t n hep hop hn _
    obtain ⟨hn0, hnq⟩ := hn trivial
    have ho := hq ep (List.mem_of_getElem? hep)
    obtain ⟨f1, f2, f3, f4, -⟩ := openFromTick_fresh hop
    have key : t.minRes = t.result ∧ t.maxRes = t.result ∧ cent (Spec.move t.dir t.openValue t.curClose) ≤ 0 := by
      have hz : cent 0 = 0 := cent_zero
      unfold Trade.openFromTick at hop
      split at hop
      · injection hop with hop
        subst hop
        refine ⟨(new_result ..).1, (new_result ..).2, ?_⟩
        rw [← hz]
        refine cent_mono ?_
        change (if ep.lastTick.bid = 0 then ep.lastTick.ask else ep.lastTick.bid) - ep.lastTick.ask ≤ 0
        split_ifs <;> linarith
      · injection hop with hop
        subst hop
        refine ⟨(new_result ..).1, (new_result ..).2, ?_⟩
        rw [← hz]
        refine cent_mono ?_
        change ep.lastTick.bid - (if ep.lastTick.ask = 0 then ep.lastTick.bid else ep.lastTick.ask) ≤ 0
        split_ifs <;> linarith
      · cases hop
    obtain ⟨k1, k2, k3⟩ := key
    have hcl : ∀ t : Trade, t.closes = [] → t.result = t.openQty * cent (Spec.move t.dir t.openValue t.curClose) := by
      intro t ht
      rw [result_split hE]
      unfold Spec.realised Spec.unrealised
      rw [ht]
      simp
    have hr := hcl t f4
    have hr' := hcl { t with openQty := n } f4
    dsimp only at hr'
    refine ⟨?_, ?_, .inr ⟨k1.trans k2.symm, ?_⟩⟩
    · unfold Trade.openedQty Trade.closedQty
      dsimp only
      rw [f4]
      simpa using hn0
    · rw [hr']
      change t.minRes ≤ _
      rw [k1, hr]
      have : (n : ℚ) ≤ t.openQty := by exact_mod_cast hnq
      nlinarith
    · dsimp only
      rw [f4]
      intro c hc
      cases hc
  · intro t ep q hep hqq ht
    have hb := Trade.closeQty_bounds ht.qty (q := q) (hqq trivial)
    have ho : (t.closeFromTick ep.lastTick q).openedQty = t.openedQty - t.closeQty q := closeFromTick_openedQty _ _ _
    have hres : (t.closeFromTick ep.lastTick q).result = (t.updateFromTick ep.lastTick).result := close_at_current hE _ _ _
    refine ⟨by rw [ho]; omega, ?_, ?_⟩
    · rw [hres]
      exact (by rw [updateFromTick_eq]; exact ht.update _ : Recorded (t.updateFromTick ep.lastTick)).low
    · rw [hres]
      by_cases h0 : t.openedQty = 0
      · have hu : t.updateFromTick ep.lastTick = t := Trade.updateFromTick_closed t (t.closed_iff.mpr h0) _
        have hcf : t.closeFromTick ep.lastTick q = t.close t.curClose ep.lastTick.dt q := by
          unfold Trade.closeFromTick
          rw [hu]
        rw [hu, hcf]
        rcases ht.high with h | ⟨h1, h2⟩
        · exact .inl h
        · refine .inr ⟨h1, ?_⟩
          intro c hc
          unfold Trade.close at hc
          rcases List.mem_append.mp hc with hc | hc
          · exact h2 c hc
          · rw [List.mem_singleton.mp hc]
            change t.closeQty q = 0
            omega
      · left
        rw [updateFromTick_eq]
        exact (update_between h0 _).2
  · intro t st h
    have hr : ({ t with status := st } : Trade).result = t.result := Trade.result_congr rfl rfl rfl rfl rfl
    exact ⟨h.qty, by rw [hr]; exact h.low, by rw [hr]; exact h.high⟩
  · intro t k st h
    have hr := result_closeStatus hE t k st
    refine ⟨?_, by rw [hr]; exact h.low, ?_⟩
    · have : ({ t with closes := (t.closes.modify k (fun c => { c with status := st })) } : Trade).openedQty = t.openedQty := by
        unfold Trade.openedQty Trade.closedQty
        dsimp only
        rw [map_modify_eq]
        intro x; rfl
      rw [this]; exact h.qty
    · rw [hr]
      rcases h.high with h | ⟨h1, h2⟩
      · exact .inl h
      · exact .inr ⟨h1, mem_modify_inv h2 k _ (fun c _ hc => hc)⟩

theorem run_recorded (hE : Exact) {env : Env} {w0 : World} (h0 : w0.Init) {l : List Cmd} (hl : Spec.ClosesByApi env l)
    (ho : Spec.OrderedLog (w0.runCmds env l).log) : ∀ t ∈ (w0.runCmds env l).trades, Recorded t := by
  let J : World → Prop := fun w => Spec.OrderedLog w.log → (∀ ep ∈ w.epics, ep.lastTick.bid ≤ ep.lastTick.ask) ∧ ∀ t ∈ w.trades, Recorded t
  have hrun : J (w0.runCmds env l) := by
    refine run_world (J := J) (Q := fun o => o.NotDirect ∧ o.Valid) ?_ ?_ ?_ ?_ ?_ hl.callbacks l hl.ops w0 ?_
    · intro w o hq hw hlog
      obtain ⟨e1, e2⟩ := step_epics w o
      rw [e2] at hlog
      obtain ⟨a, b⟩ := hw hlog
      refine ⟨by rw [e1]; exact a, ?_⟩
      exact step_quote (recorded_quoteInv hE a) rfl b o hq.1 (fun _ v _ t ht => ht.update v) (fun _ => hq.2)
    · intro w p k hw hlog
      obtain ⟨e1, e2⟩ := updateOpenTrades_epics w p k
      rw [e2] at hlog
      obtain ⟨a, b⟩ := hw hlog
      exact ⟨by rw [e1]; exact a, updateOpenTrades_quote (fun t v ht => ht.update v) w p k b⟩
    · intro w s e cb hw hlog
      exact hw (fun e' k hk => hlog e' k (List.mem_append_left _ hk))
    · intro w e ep k hep hlt hw hlog
      obtain ⟨a, b⟩ := hw (fun e' k hk => hlog e' k (List.mem_append_left _ hk))
      refine ⟨?_, b⟩
      intro x hx
      rcases List.mem_or_eq_of_mem_set hx with hx | rfl
      · exact a x hx
      · exact hlog e _ (List.mem_append_right _ (List.mem_singleton_self _))
    · intro w w' g1 _ g3 _ _ g5 hw hlog
      rw [g3] at hlog
      obtain ⟨a, b⟩ := hw hlog
      refine ⟨?_, by rw [g1]; exact b⟩
      intro x hx
      obtain ⟨e, he⟩ := List.getElem?_of_mem hx
      obtain ⟨y, hy, hxy⟩ := g5.back he
      rw [hxy.last]
      exact a y (List.mem_of_getElem? hy)
    · intro _
      refine ⟨?_, ?_⟩
      · intro ep hep
        obtain ⟨ref, z, o, c, td, hd, p, -, rfl⟩ := h0.epics ep hep
        exact le_refl _
      · intro t ht
        rw [h0.trades] at ht
        cases ht
  exact (hrun ho).2

/-- C106: the result of a trade is never below the recorded minimum; it is above the recorded maximum only as long as nothing of the trade was closed and
its result has been recorded once.  Missing for the full statement: trades reduced by `TradeProviderBacktests.open_trade` (`C106_false`); exact
arithmetic. -/
theorem C106_extremes_partial (hE : Exact) {env : Env} {w0 : World} (h0 : w0.Init) {l : List Cmd} (hl : Spec.ClosesByApi env l)
    (ho : Spec.OrderedLog (w0.runCmds env l).log) (t : Trade) (ht : t ∈ (w0.runCmds env l).trades) :
    t.minRes ≤ t.result ∧ (t.result ≤ t.maxRes ∨ Spec.Untried t) :=
  ⟨(run_recorded hE h0 hl ho t ht).low, (run_recorded hE h0 hl ho t ht).high⟩

/-- C106: a trade of which something was closed, or whose recorded extremes differ. -/
theorem C106_between_partial (hE : Exact) {env : Env} {w0 : World} (h0 : w0.Init) {l : List Cmd} (hl : Spec.ClosesByApi env l)
    (ho : Spec.OrderedLog (w0.runCmds env l).log) (t : Trade) (ht : t ∈ (w0.runCmds env l).trades)
    (hx : t.minRes ≠ t.maxRes ∨ (t.closes.map TradeClose.qty).sum ≠ 0) : Spec.Between t := by
  obtain ⟨h1, h2 | ⟨h3, h4⟩⟩ := C106_extremes_partial hE h0 hl ho t ht
  · exact ⟨h1, h2⟩
  · rcases hx with hx | hx
    · exact absurd h3 hx
    · refine absurd (List.sum_eq_zero ?_) hx
      intro n hn
      obtain ⟨c, hc, rfl⟩ := List.mem_map.mp hn
      exact h4 c hc

/-! ## Brokers -/

/-- Spec: no provider is a `TradeProviderBacktests`. -/
def Spec.NoBacktests (w : World) : Prop := ∀ pr ∈ w.providers, pr.kind = .custom

/-- Open quantities are not negative, and results are between their extremes. -/
def Bracketed (t : Trade) : Prop := 0 ≤ t.openedQty ∧ Spec.Between t

theorem Bracketed.update {t : Trade} (h : Bracketed t) (v : ℚ) : Bracketed (t.update v) := by
  by_cases h0 : t.openedQty = 0
  · rw [Trade.update_closed t (t.closed_iff.mpr h0)]; exact h
  · exact ⟨by rw [Trade.update_openedQty]; exact h.1, update_between h0 v⟩

theorem bracketed_quoteInv (hE : Exact) (E : List Epic) : QuoteInv True E Bracketed True := by
  refine ⟨?_, ?_, fun _ t h => h.1, ?_, ?_⟩
  · intro e ep d q s t n hep hop hn hB
    obtain ⟨hn0, -⟩ := hn trivial
    have hB := hB trivial
    subst hB
    obtain ⟨-, -, -, f4, -⟩ := openFromTick_fresh hop
    have key : t.minRes = t.result ∧ t.maxRes = t.result := by
      unfold Trade.openFromTick at hop
      split at hop
      · injection hop with hop; subst hop; exact new_result ..
      · injection hop with hop; subst hop; exact new_result ..
      · cases hop
    refine ⟨?_, key.1.le, key.2.ge⟩
    unfold Trade.openedQty Trade.closedQty
    rw [f4]
    simpa using hn0
  · intro t ep q hep hqq ht
    have hb := Trade.closeQty_bounds ht.1 (q := q) (hqq trivial)
    have ho : (t.closeFromTick ep.lastTick q).openedQty = t.openedQty - t.closeQty q := closeFromTick_openedQty _ _ _
    have hres : (t.closeFromTick ep.lastTick q).result = (t.updateFromTick ep.lastTick).result := close_at_current hE _ _ _
    have hu : Bracketed (t.updateFromTick ep.lastTick) := by rw [updateFromTick_eq]; exact ht.update _
    exact ⟨by rw [ho]; omega, by rw [hres]; exact hu.2.1, by rw [hres]; exact hu.2.2⟩
  · intro t st h
    have hr : ({ t with status := st } : Trade).result = t.result := Trade.result_congr rfl rfl rfl rfl rfl
    exact ⟨h.1, by rw [hr]; exact h.2.1, by rw [hr]; exact h.2.2⟩
  · intro t k st h
    have hr := result_closeStatus hE t k st
    refine ⟨?_, by rw [hr]; exact h.2.1, by rw [hr]; exact h.2.2⟩
    have : ({ t with closes := (t.closes.modify k (fun c => { c with status := st })) } : Trade).openedQty = t.openedQty := by
      unfold Trade.openedQty Trade.closedQty
      dsimp only
      rw [map_modify_eq]
      intro x; rfl
    rw [this]; exact h.1

theorem noBacktests_of_kinds {w w' : World} (h : w'.providers.map Provider.kind = w.providers.map Provider.kind) (hw : Spec.NoBacktests w) :
    Spec.NoBacktests w' := by
  intro pr hpr
  have : pr.kind ∈ w.providers.map Provider.kind := by rw [← h]; exact List.mem_map_of_mem hpr
  obtain ⟨pr', h1, h2⟩ := List.mem_map.mp this
  rw [← h2]
  exact hw pr' h1

/-- C106: without backtest providers the statement holds, of all quotes (bid above ask included).  Missing for the full statement: backtest providers
(`C106_false`), rounding. -/
theorem C106_brokers_partial (hE : Exact) {env : Env} {w0 : World} (h0 : w0.Init) (hb : Spec.NoBacktests w0) {l : List Cmd}
    (hl : Spec.ClosesByApi env l) (t : Trade) (ht : t ∈ (w0.runCmds env l).trades) : Spec.Between t := by
  let J : World → Prop := fun w => EpicsOk w ∧ Spec.NoBacktests w ∧ ∀ t ∈ w.trades, Bracketed t
  have hrun : J (w0.runCmds env l) := by
    refine run_world (J := J) (Q := fun o => o.NotDirect ∧ o.Valid) ?_ ?_ ?_ ?_ ?_ hl.callbacks l hl.ops w0 ?_
    · rintro w o hq ⟨a, b, c⟩
      have hs := step_steps (V := True) (o := o) a (fun _ => hq.2)
      refine ⟨hs.epicsOk a, noBacktests_of_kinds hs.shape.2.2.1 b, ?_⟩
      exact step_quote (bracketed_quoteInv hE w.epics) rfl c o hq.1 (fun _ v _ t ht => ht.update v) (fun _ => hq.2) (fun _ => b)
    · rintro w p k ⟨a, b, c⟩
      have hs := updateOpenTrades_steps (V := False) w p k
      exact ⟨hs.epicsOk a, noBacktests_of_kinds hs.shape.2.2.1 b, updateOpenTrades_quote (fun t v ht => ht.update v) w p k c⟩
    · rintro w s e cb hw
      exact hw
    · rintro w e ep k hep hlt ⟨a, b, c⟩
      refine ⟨?_, b, c⟩
      intro x hx
      rcases List.mem_or_eq_of_mem_set hx with hx | rfl
      · exact a x hx
      · exact a ep (List.mem_of_getElem? hep)
    · rintro w w' g1 g2 - g4 - - ⟨a, b, c⟩
      refine ⟨?_, fun pr hpr => b pr (by rw [← g2]; exact hpr), by rw [g1]; exact c⟩
      intro x hx
      have : x.provider ∈ w.epics.map Epic.provider := by rw [← g4]; exact List.mem_map_of_mem hx
      obtain ⟨y, hy, hyx⟩ := List.mem_map.mp this
      rw [← hyx, g2]
      exact a y hy
    · refine ⟨Init.epicsOk h0, hb, ?_⟩
      intro t ht
      rw [h0.trades] at ht
      cases ht
  exact (hrun.2.2 t ht).2

/-! ## Revaluation -/

/-- What is left of a world but for values and extremes of trades. -/
structure Spec.OnlyValues (w w' : World) : Prop where
  epics : w'.epics = w.epics
  strategies : w'.strategies = w.strategies
  providers : w'.providers = w.providers
  log : w'.log = w.log
  trades : w'.trades.map (fun t => { t with curClose := 0, maxRes := 0, minRes := 0 }) =
    w.trades.map (fun t => { t with curClose := 0, maxRes := 0, minRes := 0 })

theorem update_blank (t : Trade) (v : ℚ) : ({ t.update v with curClose := 0, maxRes := 0, minRes := 0 } : Trade) =
    { t with curClose := 0, maxRes := 0, minRes := 0 } := by
  unfold Trade.update Trade.updateMinMax
  dsimp only
  split_ifs <;> rfl

theorem updateFromEpic_get {w : World} {i : ℕ} {t : Trade} {ep : Epic} (ht : w.trades[i]? = some t) (hep : w.epics[t.epic]? = some ep) :
    w.updateFromEpic i = ({ w with trades := w.trades.set i (t.updateFromTick ep.lastTick) }, none) := by
  unfold World.updateFromEpic
  simp only [ht, hep]

/-- The trade after a revaluation. -/
def revalued (w : World) (t : Trade) : Trade := (w.epics[t.epic]?).elim t (fun ep => t.updateFromTick ep.lastTick)

theorem updateFromTick_twice (t : Trade) (k : Tick) : (t.updateFromTick k).updateFromTick k = t.updateFromTick k := by
  by_cases h0 : t.openedQty = 0
  · rw [Trade.updateFromTick_closed t (t.closed_iff.mpr h0), Trade.updateFromTick_closed t (t.closed_iff.mpr h0)]
  · rw [updateFromTick_eq, updateFromTick_eq, Trade.update_dir]
    obtain ⟨h1, h2⟩ := update_between h0 (Spec.exitQuote t.dir k)
    have hc : ¬ t.closed = true := fun hc => h0 (t.closed_iff.mp hc)
    set u := t.update (Spec.exitQuote t.dir k) with hu
    have hcu : ¬ u.closed = true := fun hc' => h0 (by have := u.closed_iff.mp hc'; rwa [hu, Trade.update_openedQty] at this)
    have hcur : u.curClose = Spec.exitQuote t.dir k := by rw [hu, Trade.update_curClose, if_neg hc]
    unfold Trade.update
    rw [if_neg hcu]
    have : ({ u with curClose := Spec.exitQuote t.dir k } : Trade) = u := by rw [← hcur]
    rw [this]
    unfold Trade.updateMinMax
    dsimp only
    rw [if_neg (not_lt.mpr h2), if_neg (not_lt.mpr h1)]

theorem requote_all (l : List ℕ) : ∀ w : World, (∀ i ∈ l, ∃ t ep, w.trades[i]? = some t ∧ w.epics[t.epic]? = some ep) →
    (w.requote l).2 = none ∧ (w.requote l).1.epics = w.epics ∧ (w.requote l).1.strategies = w.strategies ∧
    (w.requote l).1.providers = w.providers ∧ (w.requote l).1.log = w.log ∧
    ∀ i, (w.requote l).1.trades[i]? = if i ∈ l then (w.trades[i]?).map (revalued w) else w.trades[i]? := by
  induction l with
  | nil => intro w _; exact ⟨rfl, rfl, rfl, rfl, rfl, fun i => by simp [World.requote]⟩
  | cons j l ih =>
    intro w h
    obtain ⟨t, ep, ht, hep⟩ := h j (List.mem_cons_self ..)
    have hj := updateFromEpic_get ht hep
    set u := t.updateFromTick ep.lastTick with hu
    have hlt : j < w.trades.length := (List.getElem?_eq_some_iff.mp ht).1
    have hue : u.epic = t.epic := by rw [hu, updateFromTick_eq]; exact (kept_update t _).epic
    let w1 : World := { w with trades := w.trades.set j u }
    have hstep : w.requote (j :: l) = w1.requote l := by
      change andThen (w.updateFromEpic j) (fun w => w.requote l) = _
      rw [hj]
      rfl
    have h' : ∀ i ∈ l, ∃ t ep, w1.trades[i]? = some t ∧ w1.epics[t.epic]? = some ep := by
      intro i hi
      obtain ⟨t', ep', ht', hep'⟩ := h i (List.mem_cons_of_mem _ hi)
      by_cases hij : i = j
      · subst hij
        exact ⟨u, ep, List.getElem?_set_self hlt, by rw [hue]; exact hep⟩
      · exact ⟨t', ep', by rw [← ht']; exact List.getElem?_set_ne (Ne.symm hij), hep'⟩
    obtain ⟨a, b, c, d, e, f⟩ := ih w1 h'
    rw [hstep]
    refine ⟨a, b, c, d, e, ?_⟩
    intro i
    rw [f i]
    by_cases hij : i = j
    · subst hij
      have g : w1.trades[i]? = some u := List.getElem?_set_self hlt
      rw [g, ht]
      simp only [List.mem_cons, true_or, if_true, Option.map_some]
      have r1 : revalued w t = u := by unfold revalued; rw [hep]; rfl
      have r2 : revalued w1 u = u := by
        unfold revalued
        rw [hue, show w1.epics[t.epic]? = some ep from hep]
        exact updateFromTick_twice t _
      rw [r1, r2]
      split_ifs <;> rfl
    · have g : w1.trades[i]? = w.trades[i]? := List.getElem?_set_ne (Ne.symm hij)
      rw [g]
      simp only [List.mem_cons, hij, false_or]
      rfl

/-- C106: `update_from_epic` on the trades of a strategy, at any time of any program whatsoever: nothing but values and extremes changes; every open trade
of the strategy then has the closing side of the last tick of its epic, and its result is between its extremes; trades of others are as before. -/
theorem C106_requote {env : Env} {w : World} (hw : Reachable env w) (s : ℕ) (st : Strategy) (hs : w.strategies[s]? = some st) :
    (w.requote st.trades).2 = none ∧ Spec.OnlyValues w (w.requote st.trades).1 ∧
    (∀ i, i ∉ st.trades → (w.requote st.trades).1.trades[i]? = w.trades[i]?) ∧
    ∀ i ∈ st.trades, ∃ t ep, (w.requote st.trades).1.trades[i]? = some t ∧ (w.requote st.trades).1.epics[t.epic]? = some ep ∧
      (Spec.IsOpen t → t.curClose = Spec.exitQuote t.dir ep.lastTick ∧ Spec.Between t) ∧ (¬ Spec.IsOpen t → w.trades[i]? = some t) := by
  have hreg := hw.regInv
  have hall : ∀ i ∈ st.trades, ∃ t ep, w.trades[i]? = some t ∧ w.epics[t.epic]? = some ep := by
    intro i hi
    have hlt := hreg.stratLt s st hs i hi
    obtain ⟨ep, hep⟩ := hreg.epicOk i _ (List.getElem?_eq_getElem hlt)
    exact ⟨_, ep, List.getElem?_eq_getElem hlt, hep⟩
  obtain ⟨a, b, c, d, e, f⟩ := requote_all st.trades w hall
  refine ⟨a, ⟨b, c, d, e, ?_⟩, ?_, ?_⟩
  · apply List.ext_getElem?
    intro i
    rw [List.getElem?_map, List.getElem?_map, f i]
    split_ifs
    · rcases w.trades[i]? with _ | t
      · rfl
      · simp only [Option.map_some, Option.some.injEq]
        unfold revalued
        rcases w.epics[t.epic]? with _ | ep
        · rfl
        · simp only [Option.elim_some]
          rw [updateFromTick_eq]
          exact update_blank t _
    · rfl
  · intro i hi
    rw [f i, if_neg hi]
  · intro i hi
    obtain ⟨t, ep, ht, hep⟩ := hall i hi
    have hr : revalued w t = t.update (Spec.exitQuote t.dir ep.lastTick) := by
      unfold revalued
      rw [hep, Option.elim_some, updateFromTick_eq]
    have hk := kept_update t (Spec.exitQuote t.dir ep.lastTick)
    refine ⟨_, ep, by rw [f i, if_pos hi, ht, Option.map_some, hr], by rw [b, hk.epic]; exact hep, ?_, ?_⟩
    · intro hopen
      have h0 : t.openedQty ≠ 0 := by
        have := (isOpen_iff _).mp hopen
        rwa [Trade.update_openedQty] at this
      refine ⟨?_, update_between h0 _⟩
      rw [Trade.update_curClose, if_neg (fun hc => h0 (t.closed_iff.mp hc)), hk.dir]
    · intro hcl
      have h0 : t.openedQty = 0 := by
        by_contra h
        exact hcl ((isOpen_iff _).mpr (by rwa [Trade.update_openedQty]))
      rw [Trade.update_closed t (t.closed_iff.mpr h0)]
      exact ht

/-- C106: after that, in exact arithmetic, the result of the strategy is what its closes banked plus what closing the rest on the last ticks would bring,
whatever providers are shared, frame sets raise and quotes are 0 (compare `C60_false`). -/
theorem C106_result_partial (hE : Exact) {env : Env} {w : World} (hw : Reachable env w) (s : ℕ) (st : Strategy) (hs : w.strategies[s]? = some st) :
    let w' := (w.requote st.trades).1
    let own := st.trades.filterMap (fun i => w'.trades[i]?)
    strategyResult own .none = cent ((own.map Spec.realised).sum +
      (own.map (fun t => (w'.epics[t.epic]?).elim 0 (fun ep => Spec.gainAt t ep.lastTick))).sum) := by
  intro w' own
  rw [C56_accounting_partial hE]
  obtain ⟨-, -, -, h⟩ := C106_requote hw s st hs
  have : own.map Spec.unrealised = own.map (fun t => (w'.epics[t.epic]?).elim 0 (fun ep => Spec.gainAt t ep.lastTick)) := by
    apply List.map_congr_left
    intro t htm
    obtain ⟨i, hi, hti⟩ := List.mem_filterMap.mp htm
    obtain ⟨t', ep, h1, h2, h3, -⟩ := h i hi
    rw [show w'.trades[i]? = some t' from h1] at hti
    injection hti with hti
    subst hti
    rw [show w'.epics[t'.epic]? = some ep from h2]
    show _ = Spec.gainAt t' ep.lastTick
    unfold Spec.unrealised Spec.gainAt
    by_cases ho : t'.openedQty = 0
    · unfold Trade.openedQty Trade.closedQty at ho; rw [ho]; simp
    · rw [(h3 ho).1]
  rw [this]

/-- C106: where open trades follow the quotes by themselves (`C60`), `update_from_epic` does nothing to a trade whose result is between its extremes, and
leaves value and result of every other trade as they are. -/
theorem C106_idle_partial {env : Env} {w0 : World} (h0 : w0.Init) {l : List Cmd} (hd : Spec.Delegates env l) (ht : Spec.Tidy env w0 l)
    (i : ℕ) (t : Trade) (hi : (w0.runCmds env l).trades[i]? = some t) :
    (Spec.Between t → (w0.runCmds env l).updateFromEpic i = (w0.runCmds env l, none)) ∧
    ∃ t', ((w0.runCmds env l).updateFromEpic i).1.trades[i]? = some t' ∧ t'.curClose = t.curClose ∧ t'.result = t.result := by
  have hm := tidy_marked h0 hd ht
  obtain ⟨ep, hep⟩ := hm.reg.epicOk i t hi
  have hu := updateFromEpic_get hi hep
  have hlt : i < (w0.runCmds env l).trades.length := (List.getElem?_eq_some_iff.mp hi).1
  by_cases h0 : t.openedQty = 0
  · have : t.updateFromTick ep.lastTick = t := Trade.updateFromTick_closed t (t.closed_iff.mpr h0) _
    rw [this] at hu
    rw [hu]
    have hs : (w0.runCmds env l).trades.set i t = (w0.runCmds env l).trades := by
      rw [List.getElem?_eq_some_iff] at hi
      obtain ⟨_, rfl⟩ := hi
      exact List.set_getElem_self _
    rw [hs]
    exact ⟨fun _ => rfl, t, hi, rfl, rfl⟩
  · have hcur := (hm.marked t (List.mem_of_getElem? hi)).2 h0 ep hep
    have hc : ¬ t.closed = true := fun hc => h0 (t.closed_iff.mp hc)
    have he : t.updateFromTick ep.lastTick = t.updateMinMax := by
      rw [updateFromTick_eq, ← hcur]
      unfold Trade.update
      rw [if_neg hc]
    rw [he] at hu
    refine ⟨?_, t.updateMinMax, ?_, by simp, by simp⟩
    · rintro ⟨b1, b2⟩
      have : t.updateMinMax = t := by
        unfold Trade.updateMinMax
        dsimp only
        rw [if_neg (not_lt.mpr b2), if_neg (not_lt.mpr b1)]
      rw [hu, this]
      have hs : (w0.runCmds env l).trades.set i t = (w0.runCmds env l).trades := by
        rw [List.getElem?_eq_some_iff] at hi
        obtain ⟨_, rfl⟩ := hi
        exact List.set_getElem_self _
      rw [hs]
    · rw [hu]
      exact List.getElem?_set_self hlt

end

/-! ## Witnesses -/

/-- A BUY of 3, and a SELL of 5 that closes it and is opened for the remaining 2. -/
def Demo.netted : List Cmd :=
  [.addStrategy 0 0, .tick 0 (Demo.tk 480 10 12), .op (.openTrade 0 (some 0) (some .buy) 3), .op (.openTrade 0 (some 0) (some .sell) 5)]

theorem Demo.netted_api : Spec.ClosesByApi Demo.quiet Demo.netted := by
  refine ⟨fun _ _ _ _ => trivial, ?_⟩
  intro o ho
  simp only [Demo.netted, List.mem_cons, List.not_mem_nil, or_false, reduceCtorEq, false_or, Cmd.op.injEq] at ho
  rcases ho with rfl | rfl
  · exact ⟨trivial, by show (0 : ℤ) ≤ 3; decide⟩
  · exact ⟨trivial, by show (0 : ℤ) ≤ 5; decide⟩

theorem Demo.netted_ordered : letI := Arith.exact; Spec.OrderedLog (Demo.world.runCmds Demo.quiet Demo.netted).log := by
  letI := Arith.exact
  have : ∀ ev ∈ (Demo.world.runCmds Demo.quiet Demo.netted).log, ∀ e k, ev = .accepted e k → k.bid ≤ k.ask := by
    have h : (Demo.world.runCmds Demo.quiet Demo.netted).log.all (fun ev => match ev with
        | .accepted _ k => decide (k.bid ≤ k.ask)
        | .notify _ _ _ => true) = true := by decide +kernel
    intro ev hev e k hk
    have := List.all_eq_true.mp h ev hev
    subst hk
    simpa using this
  exact fun e k hk => this _ hk e k rfl

/-- C106 fails: the extremes of the SELL are those of 5, its result that of 2. -/
theorem C106_false : ¬ @Spec.C106 Arith.exact := by
  letI := Arith.exact
  intro h
  have hm : ∃ t ∈ (Demo.world.runCmds Demo.quiet Demo.netted).trades, t.maxRes < t.result := by decide +kernel
  obtain ⟨t, ht, hlt⟩ := hm
  exact absurd (h Demo.quiet Demo.world Demo.netted Demo.world_init Demo.netted_api Demo.netted_ordered t ht).2 (not_le.mpr hlt)

/-- The numbers: extremes -10, results -6 (closed) and -4; after the next tick the maximum is right, the minimum is a result that the trade never had. -/
example : letI := Arith.exact
    let w := Demo.world.runCmds Demo.quiet Demo.netted
    let w' := w.runCmds Demo.quiet [.tick 0 (Demo.tk 481 10 11)]
    w.trades.map (fun t => (t.minRes, t.result, t.maxRes)) = [(-6, -6, -6), (-10, -4, -10)] ∧
    w'.trades.map (fun t => (t.minRes, t.result, t.maxRes)) = [(-6, -6, -6), (-10, -2, -2)] := by decide +kernel

/-- The hypotheses of `C106_between_partial` on that program: something of the BUY was closed; after the next tick the extremes of the SELL differ. -/
example : letI := Arith.exact
    let w := Demo.world.runCmds Demo.quiet Demo.netted
    let w' := w.runCmds Demo.quiet [.tick 0 (Demo.tk 481 10 11)]
    w.trades.map (fun t => (t.closes.map TradeClose.qty).sum) = [3, 0] ∧ w'.trades.map (fun t => decide (t.minRes = t.maxRes)) = [true, false] := by
  decide +kernel

/-- Two epics share a provider: the tick of one values the trade on the other (`C60_false`); `update_from_epic` repairs that. -/
example : letI := Arith.exact
    let w := Demo.world.runCmds Demo.quiet [.addStrategy 1 0, .tick 1 (Demo.tk 480 10 12), .op (.openTrade 1 (some 0) (some .buy) 1),
      .tick 0 (Demo.tk 481 20 22)]
    w.trades.map Trade.curClose = [20] ∧ (w.requote [0]).1.trades.map Trade.curClose = [10] ∧ (w.requote [0]).2 = none := by decide +kernel

/-- The hypotheses of `C106_idle_partial`: the program of C60, in which trades are between their extremes. -/
example : letI := Arith.exact
    Spec.Delegates Demo.quiet Marked.prog ∧ Spec.Tidy Demo.quiet Marked.world Marked.prog ∧
    ∀ t ∈ (Marked.world.runCmds Demo.quiet Marked.prog).trades, t.minRes ≤ t.result ∧ t.result ≤ t.maxRes := by
  letI := Arith.exact
  exact ⟨Marked.prog_delegates, Marked.prog_tidy, by decide +kernel⟩

/-- The same program with a broker instead of the backtest provider. -/
def Demo.nettedAtBroker : World := { Demo.world with providers := Demo.world.providers.map (fun _ => Provider.new .custom) }

/-- The hypotheses of `C106_brokers_partial`; the numbers: both trades stay open, with the extremes they have shown. -/
example : letI := Arith.exact
    let w := Demo.nettedAtBroker.runCmds Demo.quiet Demo.netted
    let w' := w.runCmds Demo.quiet [.tick 0 (Demo.tk 481 10 11)]
    Spec.NoBacktests Demo.nettedAtBroker ∧ Spec.ClosesByApi Demo.quiet Demo.netted ∧
    w.trades.map (fun t => (t.minRes, t.result, t.maxRes)) = [(-6, -6, -6), (-10, -10, -10)] ∧
    w'.trades.map (fun t => (t.minRes, t.result, t.maxRes)) = [(-6, -6, -6), (-10, -5, -5)] := by
  letI := Arith.exact
  refine ⟨?_, Demo.netted_api, by decide +kernel, by decide +kernel⟩
  intro pr hpr
  obtain ⟨_, -, rfl⟩ := List.mem_map.mp hpr
  rfl

end Estrade
