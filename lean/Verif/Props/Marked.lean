import Verif.Lemmas.Marked
import Verif.Props.Fills
import Verif.Props.Results
import Verif.Props.Ranges
import Mathlib.Tactic.Linarith
import Mathlib.Tactic.LinearCombination

/-!
# Open trades at the last quote, profit of a move of the market, cost of opening (C60 - C62)
-/

set_option linter.style.haveILetI false
set_option linter.unusedSectionVars false
set_option autoImplicit false

namespace Estrade
section
variable [Arith]

/-- Spec: no frame set raises while the commands run (on accepted ticks). -/
def Spec.FramesHold (env : Env) : World → List Cmd → Prop
  | _, [] => True
  | w, c :: l =>
    (∀ e k ep, c = .tick e k → w.epics[e]? = some ep → (Spec.localTick ep.zone k).dt.lt ep.lastTick.dt = false →
      (ep.accept (Spec.localTick ep.zone k)).2 = none) ∧
    Spec.FramesHold env (w.exec env c).1 l

/-- Spec: a program that leaves trades to epics, strategies and providers (no `trade.update` or `trade.close` of its own)
and gives no negative quantities. -/
structure Spec.Delegates (env : Env) (l : List Cmd) : Prop where
  callbacks : ∀ s cb e w, (env s cb e w).All (fun o => o.Indirect ∧ o.Valid)
  ops : ∀ o, Cmd.op o ∈ l → o.Indirect ∧ o.Valid

/-- Spec: conditions under which open trades follow the quotes: own provider for each epic, no frame set raises, no quote
with exactly one side at 0. -/
structure Spec.Tidy (env : Env) (w0 : World) (l : List Cmd) : Prop where
  providers : (w0.epics.map Epic.provider).Nodup
  frames : Spec.FramesHold env w0 l
  quotes : ∀ e k, Cmd.tick e k ∈ l → (k.bid = 0 ↔ k.ask = 0)

theorem prog_all_imp {P Q : Op → Prop} (h : ∀ o, P o → Q o) (p : Prog) (hp : p.All P) : p.All Q := by
  induction p with
  | done => trivial
  | raise e => trivial
  | act o k ih => exact ⟨h o hp.1, fun w e => ih w e (hp.2 w e)⟩

theorem Spec.Delegates.env_valid {env : Env} {l : List Cmd} (h : Spec.Delegates env l) : env.Valid :=
  fun s cb e w => prog_all_imp (fun _ ho => ho.2) _ (h.callbacks s cb e w)

theorem Spec.Delegates.cmd_valid {env : Env} {l : List Cmd} (h : Spec.Delegates env l) : ∀ c ∈ l, c.Valid := by
  intro c hc
  cases c with
  | op o => exact (h.ops o hc).2
  | _ => trivial

theorem run_marked {env : Env} (henv : ∀ s cb e w, (env s cb e w).All (fun o => o.Indirect ∧ o.Valid)) (l : List Cmd) :
    ∀ w : World, MarkedInv w → (∀ o, Cmd.op o ∈ l → o.Indirect ∧ o.Valid) →
    (∀ e k, Cmd.tick e k ∈ l → (k.bid = 0 ↔ k.ask = 0)) → Spec.FramesHold env w l → MarkedInv (w.runCmds env l) := by
  induction l with
  | nil => intro w hw _ _ _; exact hw
  | cons c l ih =>
    intro w hw ho hq hf
    refine ih _ (exec_marked henv w c ?_ ?_ hf.1 hw) ?_ ?_ hf.2
    · rintro o rfl; exact ho o (by simp)
    · rintro e k rfl; exact hq e k (by simp)
    · intro o h; exact ho o (by simp [h])
    · intro e k h; exact hq e k (by simp [h])

theorem Init.markedInv {w : World} (h : w.Init) (hp : (w.epics.map Epic.provider).Nodup) : MarkedInv w := by
  refine ⟨Init.epicsOk h, Init.regInv h, hp, ?_, ?_⟩
  · intro x hx
    obtain ⟨ref, z, o, c, td, hd, p, -, rfl⟩ := h.epics x hx
    exact Iff.rfl
  · intro t ht; rw [h.trades] at ht; cases ht

theorem tidy_marked {env : Env} {w0 : World} (h0 : w0.Init) {l : List Cmd} (hd : Spec.Delegates env l)
    (ht : Spec.Tidy env w0 l) : MarkedInv (w0.runCmds env l) :=
  run_marked hd.callbacks l w0 (Init.markedInv h0 ht.providers) hd.ops ht.quotes ht.frames

/-! ## C60 -/

/-- C60 as stated: without direct updates and closes, every open trade carries the closing side of the latest tick of its
epic. -/
def Spec.C60 : Prop :=
  ∀ (env : Env) (w0 : World) (l : List Cmd), w0.Init → Spec.Delegates env l →
  ∀ t ∈ (w0.runCmds env l).trades, Spec.IsOpen t → ∀ ep, (w0.runCmds env l).epics[t.epic]? = some ep →
    t.curClose = Spec.exitQuote t.dir ep.lastTick

/-- C60 for programs with one provider per epic, whose frame sets do not raise and whose quotes are not zero on exactly
one side.  Missing for the full statement: each of the three (`C60_false`, `C60_false_zero_quote`,
`C60_false_frame_error`). -/
theorem C60_open_trades_at_last_quote_partial {env : Env} {w0 : World} (h0 : w0.Init) {l : List Cmd}
    (hd : Spec.Delegates env l) (ht : Spec.Tidy env w0 l) (t : Trade) (htr : t ∈ (w0.runCmds env l).trades)
    (hopen : Spec.IsOpen t) (ep : Epic) (hep : (w0.runCmds env l).epics[t.epic]? = some ep) :
    t.curClose = Spec.exitQuote t.dir ep.lastTick :=
  ((tidy_marked h0 hd ht).marked t htr).2 hopen ep hep

/-- Spec: gain of the open rest of a trade if it were closed on the tick `k`. -/
def Spec.gainAt (t : Trade) (k : Tick) : ℚ :=
  ((t.openQty - (t.closes.map TradeClose.qty).sum : ℤ) : ℚ) * cent (Spec.move t.dir t.openValue (Spec.exitQuote t.dir k))

/-- C60 for results (exact arithmetic): the result of a strategy is what its closes banked plus what closing the rest on
the last ticks would bring. -/
theorem C60_result_partial (hE : Exact) {env : Env} {w0 : World} (h0 : w0.Init) {l : List Cmd}
    (hd : Spec.Delegates env l) (ht : Spec.Tidy env w0 l) (st : Strategy) :
    let w := w0.runCmds env l
    let own := st.trades.filterMap (fun i => w.trades[i]?)
    strategyResult own .none = cent ((own.map Spec.realised).sum +
      (own.map (fun t => (w.epics[t.epic]?).elim 0 (fun ep => Spec.gainAt t ep.lastTick))).sum) := by
  intro w own
  rw [C56_accounting_partial hE]
  have hm := tidy_marked h0 hd ht
  have : own.map Spec.unrealised = own.map (fun t => (w.epics[t.epic]?).elim 0 (fun ep => Spec.gainAt t ep.lastTick)) := by
    apply List.map_congr_left
    intro t htm
    obtain ⟨i, -, hti⟩ := List.mem_filterMap.mp htm
    obtain ⟨ep, hep⟩ := hm.reg.epicOk i t hti
    rw [hep]
    show _ = Spec.gainAt t ep.lastTick
    unfold Spec.unrealised Spec.gainAt
    by_cases ho : t.openedQty = 0
    · unfold Trade.openedQty Trade.closedQty at ho; rw [ho]; simp
    · rw [(hm.marked t (List.mem_of_getElem? hti)).2 ho ep hep]
  rw [this]

/-! ## C61 -/

/-- Spec: open quantity of the trades of direction `d` on epic `e`. -/
def Spec.held (d : Dir) (e : ℕ) (l : List Trade) : ℤ :=
  ((l.filter (fun t => decide (t.dir = d ∧ t.epic = e))).map (fun t => t.openQty - (t.closes.map TradeClose.qty).sum)).sum

theorem IsCent.int_mul {a : ℚ} (ha : IsCent a) (n : ℤ) : IsCent ((n : ℚ) * a) := by
  rw [mul_comm]; exact ha.mul_int n

theorem result_isCent (hE : Exact) (t : Trade) : IsCent t.result := by
  rw [result_split hE]
  refine IsCent.add (isCent_sum ?_) ((isCent_cent _).int_mul _)
  intro x hx
  obtain ⟨c, -, rfl⟩ := List.mem_map.mp hx
  exact (isCent_cent _).int_mul _

theorem strategyResult_total (hE : Exact) (own : List Trade) : strategyResult own .none = Spec.total own := by
  rw [C37_result_partial hE own .none (by simp)]
  refine IsCent.cent (isCent_sum ?_)
  intro x hx
  obtain ⟨t, -, rfl⟩ := List.mem_map.mp hx
  exact result_isCent hE t

theorem cent_move {d : Dir} {a b : ℚ} (ha : IsCent a) (hb : IsCent b) : cent (Spec.move d a b) = Spec.move d a b := by
  cases d
  · exact (hb.sub ha).cent
  · exact (ha.sub hb).cent

/-- C61 (exact arithmetic, prices in whole cents, strategies silent on this tick): an accepted tick changes the result of
every strategy by the long quantity on the epic times the move of the bid minus the short quantity times the move of the
ask. -/
theorem C61_profit_of_a_move_partial (hE : Exact) {env : Env} {w0 : World} (h0 : w0.Init) {l : List Cmd}
    (hd : Spec.Delegates env l) (ht : Spec.Tidy env w0 l) {e : ℕ} {ep : Epic} {k : Tick}
    (hep : (w0.runCmds env l).epics[e]? = some ep) {env' : Env} (hs : Spec.Silent env')
    (hok : ((w0.runCmds env l).onNewTick env' e k).2 = none) {s : ℕ} {st : Strategy}
    (hst : (w0.runCmds env l).strategies[s]? = some st)
    (hin : ∀ i ∈ st.trades, ∀ t, (w0.runCmds env l).trades[i]? = some t → IsCent t.openValue)
    (hlast : IsCent ep.lastTick.bid ∧ IsCent ep.lastTick.ask) (hk : IsCent k.bid ∧ IsCent k.ask) :
    let w := w0.runCmds env l
    let w' := (w.onNewTick env' e k).1
    let own := st.trades.filterMap (fun i => w.trades[i]?)
    let own' := st.trades.filterMap (fun i => w'.trades[i]?)
    strategyResult own' .none = strategyResult own .none + Spec.held .buy e own * (k.bid - ep.lastTick.bid) -
      Spec.held .sell e own * (k.ask - ep.lastTick.ask) := by
  intro w w' own own'
  have hm := tidy_marked h0 hd ht
  have hv : Spec.ValidRun env w := ⟨w0, h0, hd.env_valid, l, hd.cmd_valid, rfl⟩
  rw [strategyResult_total hE, strategyResult_total hE]
  have key : ∀ ids : List ℕ, (∀ i ∈ ids, i ∈ st.trades) →
      Spec.total (ids.filterMap (fun i => w'.trades[i]?)) = Spec.total (ids.filterMap (fun i => w.trades[i]?)) +
        Spec.held .buy e (ids.filterMap (fun i => w.trades[i]?)) * (k.bid - ep.lastTick.bid) -
        Spec.held .sell e (ids.filterMap (fun i => w.trades[i]?)) * (k.ask - ep.lastTick.ask) := by
    intro ids
    induction ids with
    | nil => intro _; simp [Spec.total, Spec.held]
    | cons i ids ih =>
      intro hi
      have ih := ih (fun j hj => hi j (by simp [hj]))
      rw [List.filterMap_cons, List.filterMap_cons]
      rcases hti : w.trades[i]? with _ | t
      · have := List.getElem?_eq_getElem (hm.reg.stratLt s st hst i (hi i (by simp)))
        rw [hti] at this; cases this
      · have hti' := C29_repriced_partial hv hep (fun e' ep' h1 h2 => epic_of_provider hm.own h1 hep h2) hs hok i t hti
        have hti' : w'.trades[i]? = _ := hti'
        rw [hti']
        simp only
        have hoc := hin i (hi i (by simp)) t hti
        have hres : ∀ x : Trade, x = (if t.epic = e ∧ Spec.IsOpen t then Spec.repriced t (Spec.localTick ep.zone k) else t) →
            x.result = t.result + (if t.epic = e then ((t.openQty - (t.closes.map TradeClose.qty).sum : ℤ) : ℚ) *
              (match t.dir with | .buy => k.bid - ep.lastTick.bid | .sell => - (k.ask - ep.lastTick.ask)) else 0) := by
          intro x hx
          by_cases he : t.epic = e
          · rw [if_pos he]
            by_cases ho : Spec.IsOpen t
            · rw [if_pos ⟨he, ho⟩] at hx
              have hcur := (hm.marked t (List.mem_of_getElem? hti)).2 ho ep (he ▸ hep)
              have h1 : x.result = Spec.realised t + Spec.gainAt t k := by
                rw [result_split hE, hx]; rfl
              have h2 : t.result = Spec.realised t + Spec.gainAt t ep.lastTick := by
                rw [result_split hE]; unfold Spec.unrealised Spec.gainAt; rw [hcur]
              rw [h1, h2]
              unfold Spec.gainAt
              cases hdir : t.dir
              · rw [cent_move hoc (show IsCent (Spec.exitQuote .buy k) from hk.1),
                  cent_move hoc (show IsCent (Spec.exitQuote .buy ep.lastTick) from hlast.1)]
                simp only [Spec.move, Spec.exitQuote]; ring
              · rw [cent_move hoc (show IsCent (Spec.exitQuote .sell k) from hk.2),
                  cent_move hoc (show IsCent (Spec.exitQuote .sell ep.lastTick) from hlast.2)]
                simp only [Spec.move, Spec.exitQuote]; ring
            · rw [if_neg (fun h => ho h.2)] at hx
              unfold Spec.IsOpen at ho
              push Not at ho
              rw [hx, ho]; simp
          · rw [if_neg he, add_zero]
            rw [if_neg (fun h => he h.1)] at hx
            rw [hx]
        have hres := hres _ rfl
        unfold Spec.total Spec.held at ih ⊢
        rw [List.map_cons, List.sum_cons, List.map_cons, List.sum_cons, hres, ih]
        by_cases he : t.epic = e
        · cases hdir : t.dir
          · rw [List.filter_cons_of_pos (by simp [hdir, he]), List.filter_cons_of_neg (by simp [hdir])]
            simp only [List.map_cons, List.sum_cons, if_pos he]
            push_cast; ring
          · rw [List.filter_cons_of_neg (by simp [hdir]), List.filter_cons_of_pos (by simp [hdir, he])]
            simp only [List.map_cons, List.sum_cons, if_pos he]
            push_cast; ring
        · rw [List.filter_cons_of_neg (by simp [he]), List.filter_cons_of_neg (by simp [he]), if_neg he]
          ring
  exact key st.trades (fun _ h => h)

/-! ## C62 -/

/-- C62 (exact arithmetic, backtest provider): opening a trade changes the result of the strategy by the spread times the
quantity that is left after netting; the netting itself is free. -/
theorem C62_cost_of_opening_partial (hE : Exact) {env : Env} {w0 : World} (h0 : w0.Init) {l : List Cmd}
    (hd : Spec.Delegates env l) (ht : Spec.Tidy env w0 l) {e : ℕ} {ep : Epic} {pr : Provider}
    (hep : (w0.runCmds env l).epics[e]? = some ep) (hpr : (w0.runCmds env l).providers[ep.provider]? = some pr)
    (hk : pr.kind = .backtests) {s : ℕ} {st : Strategy} (hst : (w0.runCmds env l).strategies[s]? = some st)
    (d : Dir) (q : ℤ) (hq : 0 < q) :
    let w := w0.runCmds env l
    let w' := (w.step (.openTrade e (some s) (some d) q)).1
    let left := max 0 (q - ((Spec.openTradesOf w pr (Spec.flip d) (some s)).map (Spec.openQuantity w)).sum)
    ∃ st', w'.strategies[s]? = some st' ∧
      strategyResult (st'.trades.filterMap (fun i => w'.trades[i]?)) .none =
        strategyResult (st.trades.filterMap (fun i => w.trades[i]?)) .none -
          left * cent (ep.lastTick.ask - ep.lastTick.bid) := by
  intro w w' left
  have hm := tidy_marked h0 hd ht
  have hv : Spec.ValidRun env w := ⟨w0, h0, hd.env_valid, l, hd.cmd_valid, rfl⟩
  have hlt : ∀ k, some s = some k → k < w.strategies.length := by
    intro k hk'; injection hk' with hk'; subst hk'; exact getElem?_lt hst
  have hflip : Spec.flip d = d.opposite := by cases d <;> rfl
  obtain ⟨h1, ⟨t, h2, h2'⟩, h3, h4, h5, -, -, h8⟩ := openTrade_backtests hm.reg hv.nonNeg hep hpr hk (some s) hlt d q hq.le
  rw [← hflip] at h2' h4 h5 h8
  obtain ⟨st', g1, g2⟩ := h8 s st hst
  refine ⟨st', g1, ?_⟩
  rw [strategyResult_total hE, strategyResult_total hE, g2]
  have hold : ∀ i ∈ st.trades, ∃ a b, w.trades[i]? = some a ∧ w'.trades[i]? = some b ∧ b.result = a.result := by
    intro i hi
    have hil := hm.reg.stratLt s st hst i hi
    by_cases ho : i ∈ Spec.openTradesOf w pr (Spec.flip d) (some s)
    · obtain ⟨j, hj⟩ := List.getElem?_of_mem ho
      obtain ⟨a, ept, c, r, k1, k2, -, -, k5⟩ := h5 j i hj
      refine ⟨a, _, k1, k5, closeFromTick_result hE a ept.lastTick _ ?_⟩
      refine (hm.marked a (List.mem_of_getElem? k1)).2 ?_ ept k2
      have := List.of_mem_filter ho
      have k1' : w.trades[i]? = some a := k1
      rw [k1'] at this
      simp only [decide_eq_true_eq] at this
      exact this.2.2
    · exact ⟨_, _, List.getElem?_eq_getElem hil, (h4 i hil ho).trans (List.getElem?_eq_getElem hil), rfl⟩
  have hsum : ∀ ids : List ℕ, (∀ i ∈ ids, i ∈ st.trades) →
      Spec.total (ids.filterMap (fun i => w'.trades[i]?)) = Spec.total (ids.filterMap (fun i => w.trades[i]?)) := by
    intro ids
    induction ids with
    | nil => intro _; rfl
    | cons i ids ih =>
      intro hi
      obtain ⟨a, b, k1, k2, k3⟩ := hold i (hi i (by simp))
      have ih := ih (fun j hj => hi j (by simp [hj]))
      rw [List.filterMap_cons, List.filterMap_cons, k1, k2]
      unfold Spec.total at ih ⊢
      simp only [List.map_cons, List.sum_cons]
      rw [k3, ih]
  have hnew : ({ t with openQty := left } : Trade).result = - (left * cent (ep.lastTick.ask - ep.lastTick.bid)) := by
    have hz := hm.zero ep (List.mem_of_getElem? hep)
    rw [result_split hE]
    have hc := marked_fresh (n := left) hm.zero hep h2 (le_max_left _ _)
    obtain ⟨c1, c2⟩ := hc
    have hcl : t.closes = [] := (openFromTick_fresh h2).2.2.2.1
    have hte : t.epic = e := (openFromTick_fresh h2).1
    unfold Spec.realised Spec.unrealised
    simp only [hcl, List.map_nil, List.sum_nil, zero_add, sub_zero]
    by_cases hl : left = 0
    · rw [hl]; simp
    · have hopen : ({ t with openQty := left } : Trade).openedQty ≠ 0 := by
        unfold Trade.openedQty Trade.closedQty; simp only [hcl, List.map_nil, List.sum_nil, sub_zero]; exact hl
      have hcur : t.curClose = Spec.exitQuote t.dir ep.lastTick := c2 hopen ep (by simp only [hte]; exact hep)
      rw [hcur, ← mul_neg, ← cent_neg]
      cases d
      · simp only [Trade.openFromTick, Except.ok.injEq] at h2
        subst h2
        simp only [Trade.new, Spec.move, Spec.exitQuote]
        congr 2; ring
      · simp only [Trade.openFromTick, Except.ok.injEq] at h2
        subst h2
        simp only [Trade.new, Spec.move, Spec.exitQuote]
        congr 2; ring
  rw [List.filterMap_append]
  unfold Spec.total at hsum ⊢
  rw [List.map_append, List.sum_append, hsum st.trades (fun _ h => h)]
  have hcase : (((if some s = some s ∧ ((Spec.openTradesOf w pr (Spec.flip d) (some s)).map (Spec.openQuantity w)).sum < q then
      [w.trades.length] else []).filterMap (fun i => w'.trades[i]?)).map Trade.result).sum =
      - (left * cent (ep.lastTick.ask - ep.lastTick.bid)) := by
    split_ifs with hc
    · have h2'' : w'.trades[w.trades.length]? = some { t with openQty := left } := h2'
      simp only [List.filterMap_cons, h2'', List.filterMap_nil, List.map_cons, List.map_nil, List.sum_cons, List.sum_nil,
        add_zero]
      exact hnew
    · have : left = 0 := by
        have : ¬ ((Spec.openTradesOf w pr (Spec.flip d) (some s)).map (Spec.openQuantity w)).sum < q := fun h => hc ⟨rfl, h⟩
        show max 0 _ = _
        omega
      rw [this]; simp
  rw [hcase]
  ring

/-- C60 for results in every float format as accurate as binary64, amounts within range: the result is the float of the
exact amount banked by the closes plus what closing the rest on the last ticks would bring. -/
theorem C60_result_in_range_partial (hA : Accurate) {env : Env} {w0 : World} (h0 : w0.Init) {l : List Cmd}
    (hd : Spec.Delegates env l) (ht : Spec.Tidy env w0 l) (st : Strategy) :
    let w := w0.runCmds env l
    let own := st.trades.filterMap (fun i => w.trades[i]?)
    Spec.WithinRange own →
    strategyResult own .none = fl ((own.map Spec.banked).sum +
      (own.map (fun t => (w.epics[t.epic]?).elim 0 (fun ep =>
        Spec.gain t.dir t.openValue (Spec.exitQuote t.dir ep.lastTick) *
          (t.openQty - (t.closes.map TradeClose.qty).sum : ℤ)))).sum) := by
  intro w own hr
  rw [C56_accounting_in_range_partial hA own hr]
  have hm := tidy_marked h0 hd ht
  congr 3
  apply List.map_congr_left
  intro t htm
  obtain ⟨i, -, hti⟩ := List.mem_filterMap.mp htm
  obtain ⟨ep, hep⟩ := hm.reg.epicOk i t hti
  rw [hep]
  show Spec.gain _ _ t.curClose * _ = Spec.gain _ _ _ * _
  by_cases ho : t.openedQty = 0
  · unfold Trade.openedQty Trade.closedQty at ho; rw [ho]; simp
  · rw [(hm.marked t (List.mem_of_getElem? hti)).2 ho ep hep]

/-! ## C61, C62 in floats -/

theorem repriced_worth (t : Trade) (k : Tick) :
    Spec.banked (Spec.repriced t k) = Spec.banked t ∧
    Spec.pending (Spec.repriced t k) = Spec.gain t.dir t.openValue (Spec.exitQuote t.dir k) *
      (t.openQty - (t.closes.map TradeClose.qty).sum : ℤ) := ⟨rfl, rfl⟩

/-- C61 in every float format as accurate as binary64: quotes are the floats of prices in cents; results before and after
are the floats of exact amounts, which differ by the long quantity times the move of the bid minus the short quantity
times the move of the ask. -/
theorem C61_profit_of_a_move_in_range_partial (hA : Accurate) {env : Env} {w0 : World} (h0 : w0.Init) {l : List Cmd}
    (hd : Spec.Delegates env l) (ht : Spec.Tidy env w0 l) {e : ℕ} {ep : Epic} {k : Tick}
    (hep : (w0.runCmds env l).epics[e]? = some ep) {env' : Env} (hs : Spec.Silent env')
    (hok : ((w0.runCmds env l).onNewTick env' e k).2 = none) {s : ℕ} {st : Strategy}
    (hst : (w0.runCmds env l).strategies[s]? = some st) {P b a b' a' : ℚ} (hP : P ≤ 2 ^ 40)
    (hin : ∀ i ∈ st.trades, ∀ t, (w0.runCmds env l).trades[i]? = some t → ∃ o, Spec.Price P o ∧ t.openValue = fl o)
    (hb : Spec.Price P b ∧ ep.lastTick.bid = fl b) (ha : Spec.Price P a ∧ ep.lastTick.ask = fl a)
    (hb' : Spec.Price P b' ∧ k.bid = fl b') (ha' : Spec.Price P a' ∧ k.ask = fl a') :
    let w := w0.runCmds env l
    let w' := (w.onNewTick env' e k).1
    let own := st.trades.filterMap (fun i => w.trades[i]?)
    let own' := st.trades.filterMap (fun i => w'.trades[i]?)
    let x := (own.map Spec.banked).sum + (own.map Spec.pending).sum
    Spec.WithinRange own → Spec.WithinRange own' →
    strategyResult own .none = fl x ∧
    strategyResult own' .none = fl (x + Spec.held .buy e own * (b' - b) - Spec.held .sell e own * (a' - a)) := by
  intro w w' own own' x hr hr'
  have hm := tidy_marked h0 hd ht
  have hv : Spec.ValidRun env w := ⟨w0, h0, hd.env_valid, l, hd.cmd_valid, rfl⟩
  refine ⟨C56_accounting_in_range_partial hA own hr, ?_⟩
  rw [C56_accounting_in_range_partial hA own' hr']
  congr 1
  have key : ∀ ids : List ℕ, (∀ i ∈ ids, i ∈ st.trades) →
      ((ids.filterMap (fun i => w'.trades[i]?)).map Spec.banked).sum +
        ((ids.filterMap (fun i => w'.trades[i]?)).map Spec.pending).sum =
      ((ids.filterMap (fun i => w.trades[i]?)).map Spec.banked).sum +
        ((ids.filterMap (fun i => w.trades[i]?)).map Spec.pending).sum +
        Spec.held .buy e (ids.filterMap (fun i => w.trades[i]?)) * (b' - b) -
        Spec.held .sell e (ids.filterMap (fun i => w.trades[i]?)) * (a' - a) := by
    intro ids
    induction ids with
    | nil => intro _; simp [Spec.held]
    | cons i ids ih =>
      intro hi
      have ih := ih (fun j hj => hi j (by simp [hj]))
      rw [List.filterMap_cons, List.filterMap_cons]
      rcases hti : w.trades[i]? with _ | t
      · have := List.getElem?_eq_getElem (hm.reg.stratLt s st hst i (hi i (by simp)))
        rw [hti] at this; cases this
      · have hti' : w'.trades[i]? = _ :=
          C29_repriced_partial hv hep (fun e' ep' h1 h2 => epic_of_provider hm.own h1 hep h2) hs hok i t hti
        rw [hti']
        simp only
        obtain ⟨o, hoP, hov⟩ := hin i (hi i (by simp)) t hti
        have hres : ∀ y : Trade, y = (if t.epic = e ∧ Spec.IsOpen t then Spec.repriced t (Spec.localTick ep.zone k) else t) →
            Spec.banked y + Spec.pending y = Spec.banked t + Spec.pending t +
              (if t.epic = e then ((t.openQty - (t.closes.map TradeClose.qty).sum : ℤ) : ℚ) *
                (match t.dir with | .buy => b' - b | .sell => - (a' - a)) else 0) := by
          intro y hy
          by_cases he : t.epic = e
          · rw [if_pos he]
            by_cases ho : Spec.IsOpen t
            · rw [if_pos ⟨he, ho⟩] at hy
              have hcur := (hm.marked t (List.mem_of_getElem? hti)).2 ho ep (he ▸ hep)
              rw [hy, (repriced_worth t _).1, (repriced_worth t _).2]
              unfold Spec.pending
              rw [hcur, hov]
              cases hdir : t.dir
              · rw [show Spec.exitQuote .buy (Spec.localTick ep.zone k) = fl b' from hb'.2,
                  show Spec.exitQuote .buy ep.lastTick = fl b from hb.2,
                  gain_cents hA _ hoP.1 hb'.1.1 hP hoP.2 hb'.1.2, gain_cents hA _ hoP.1 hb.1.1 hP hoP.2 hb.1.2]
                simp only [Spec.move]; ring
              · rw [show Spec.exitQuote .sell (Spec.localTick ep.zone k) = fl a' from ha'.2,
                  show Spec.exitQuote .sell ep.lastTick = fl a from ha.2,
                  gain_cents hA _ hoP.1 ha'.1.1 hP hoP.2 ha'.1.2, gain_cents hA _ hoP.1 ha.1.1 hP hoP.2 ha.1.2]
                simp only [Spec.move]; ring
            · rw [if_neg (fun h => ho h.2)] at hy
              unfold Spec.IsOpen at ho
              push Not at ho
              rw [hy, ho]; simp
          · rw [if_neg he, add_zero]
            rw [if_neg (fun h => he h.1)] at hy
            rw [hy]
        have hres := hres _ rfl
        unfold Spec.held at ih ⊢
        simp only [List.map_cons, List.sum_cons]
        by_cases he : t.epic = e
        · rw [if_pos he] at hres
          cases hdir : t.dir
          · rw [List.filter_cons_of_pos (by simp [hdir, he]), List.filter_cons_of_neg (by simp [hdir])]
            simp only [hdir, List.map_cons, List.sum_cons] at hres ⊢
            push_cast at hres ih ⊢
            linear_combination hres + ih
          · rw [List.filter_cons_of_neg (by simp [hdir]), List.filter_cons_of_pos (by simp [hdir, he])]
            simp only [hdir, List.map_cons, List.sum_cons] at hres ⊢
            push_cast at hres ih ⊢
            linear_combination hres + ih
        · rw [List.filter_cons_of_neg (by simp [he]), List.filter_cons_of_neg (by simp [he])]
          rw [if_neg he] at hres
          linear_combination hres + ih
  exact key st.trades (fun _ h => h)

/-- Closing some of a trade at the current quote moves value from pending to banked. -/
theorem closeFromTick_worth (t : Trade) (k : Tick) (q : Option ℤ) (hcur : t.curClose = Spec.exitQuote t.dir k) :
    Spec.banked (t.closeFromTick k q) + Spec.pending (t.closeFromTick k q) = Spec.banked t + Spec.pending t := by
  have hcc : (t.update (Spec.exitQuote t.dir k)).curClose = t.curClose := by
    rw [Trade.update_curClose]; split_ifs
    · rfl
    · exact hcur.symm
  unfold Trade.closeFromTick
  rw [updateFromTick_eq, (close_exact _ _ _ _).1]
  have h1 : Spec.banked (t.update (Spec.exitQuote t.dir k)) = Spec.banked t := by
    unfold Spec.banked; simp only [Trade.update_dir, Trade.update_openValue, Trade.update_closes]
  have h2 : ∀ v dt q, Spec.pending ((t.update (Spec.exitQuote t.dir k)).close v dt q) =
      Spec.gain t.dir t.openValue t.curClose * (t.openedQty - (t.update (Spec.exitQuote t.dir k)).closeQty q : ℤ) := by
    intro v dt q
    have h3 := Trade.close_openedQty (t.update (Spec.exitQuote t.dir k)) v dt q
    rw [Trade.update_openedQty] at h3
    rw [← h3]
    unfold Spec.pending
    simp only [Trade.close_dir, Trade.close_openValue, Trade.close_curClose, Trade.update_dir, Trade.update_openValue, hcc]
    rfl
  rw [h1, h2, hcc]
  simp only [Trade.update_dir, Trade.update_openValue]
  have h4 : Spec.pending t = Spec.gain t.dir t.openValue t.curClose * (t.openedQty : ℤ) := rfl
  rw [h4]
  push_cast
  ring

/-- C62 in every float format as accurate as binary64, amounts within range: the results before and after are the floats
of exact amounts, which differ by the spread times the quantity left after netting. -/
theorem C62_cost_of_opening_in_range_partial (hA : Accurate) {env : Env} {w0 : World} (h0 : w0.Init) {l : List Cmd}
    (hd : Spec.Delegates env l) (ht : Spec.Tidy env w0 l) {e : ℕ} {ep : Epic} {pr : Provider}
    (hep : (w0.runCmds env l).epics[e]? = some ep) (hpr : (w0.runCmds env l).providers[ep.provider]? = some pr)
    (hk : pr.kind = .backtests) {s : ℕ} {st : Strategy} (hst : (w0.runCmds env l).strategies[s]? = some st)
    (d : Dir) (q : ℤ) (hq : 0 < q) :
    let w := w0.runCmds env l
    let w' := (w.step (.openTrade e (some s) (some d) q)).1
    let left := max 0 (q - ((Spec.openTradesOf w pr (Spec.flip d) (some s)).map (Spec.openQuantity w)).sum)
    let own := st.trades.filterMap (fun i => w.trades[i]?)
    let x := (own.map Spec.banked).sum + (own.map Spec.pending).sum
    ∃ st', w'.strategies[s]? = some st' ∧
      (Spec.WithinRange own → Spec.WithinRange (st'.trades.filterMap (fun i => w'.trades[i]?)) →
        strategyResult own .none = fl x ∧
        strategyResult (st'.trades.filterMap (fun i => w'.trades[i]?)) .none =
          fl (x - left * cent (fl (ep.lastTick.ask - ep.lastTick.bid)))) := by
  intro w w' left own x
  have hm := tidy_marked h0 hd ht
  have hv : Spec.ValidRun env w := ⟨w0, h0, hd.env_valid, l, hd.cmd_valid, rfl⟩
  have hlt : ∀ k, some s = some k → k < w.strategies.length := by
    intro k hk'; injection hk' with hk'; subst hk'; exact getElem?_lt hst
  have hflip : Spec.flip d = d.opposite := by cases d <;> rfl
  obtain ⟨h1, ⟨t, h2, h2'⟩, h3, h4, h5, -, -, h8⟩ := openTrade_backtests hm.reg hv.nonNeg hep hpr hk (some s) hlt d q hq.le
  rw [← hflip] at h2' h4 h5 h8
  obtain ⟨st', g1, g2⟩ := h8 s st hst
  refine ⟨st', g1, fun hr hr' => ⟨C56_accounting_in_range_partial hA own hr, ?_⟩⟩
  rw [C56_accounting_in_range_partial hA _ hr', g2]
  congr 1
  have hold : ∀ i ∈ st.trades, ∃ a b, w.trades[i]? = some a ∧ w'.trades[i]? = some b ∧
      Spec.banked b + Spec.pending b = Spec.banked a + Spec.pending a := by
    intro i hi
    have hil := hm.reg.stratLt s st hst i hi
    by_cases ho : i ∈ Spec.openTradesOf w pr (Spec.flip d) (some s)
    · obtain ⟨j, hj⟩ := List.getElem?_of_mem ho
      obtain ⟨a, ept, c, r, k1, k2, -, -, k5⟩ := h5 j i hj
      refine ⟨a, _, k1, k5, closeFromTick_worth a ept.lastTick _ ?_⟩
      refine (hm.marked a (List.mem_of_getElem? k1)).2 ?_ ept k2
      have := List.of_mem_filter ho
      have k1' : w.trades[i]? = some a := k1
      rw [k1'] at this
      simp only [decide_eq_true_eq] at this
      exact this.2.2
    · exact ⟨_, _, List.getElem?_eq_getElem hil, (h4 i hil ho).trans (List.getElem?_eq_getElem hil), rfl⟩
  have hsum : ∀ ids : List ℕ, (∀ i ∈ ids, i ∈ st.trades) →
      ((ids.filterMap (fun i => w'.trades[i]?)).map Spec.banked).sum +
        ((ids.filterMap (fun i => w'.trades[i]?)).map Spec.pending).sum =
      ((ids.filterMap (fun i => w.trades[i]?)).map Spec.banked).sum +
        ((ids.filterMap (fun i => w.trades[i]?)).map Spec.pending).sum := by
    intro ids
    induction ids with
    | nil => intro _; rfl
    | cons i ids ih =>
      intro hi
      obtain ⟨a, b, k1, k2, k3⟩ := hold i (hi i (by simp))
      have ih := ih (fun j hj => hi j (by simp [hj]))
      rw [List.filterMap_cons, List.filterMap_cons, k1, k2]
      simp only [List.map_cons, List.sum_cons]
      linear_combination k3 + ih
  have hnew : Spec.banked ({ t with openQty := left } : Trade) = 0 ∧ Spec.pending ({ t with openQty := left } : Trade) =
      - (left * cent (fl (ep.lastTick.ask - ep.lastTick.bid))) := by
    have hc := marked_fresh (n := left) hm.zero hep h2 (le_max_left _ _)
    obtain ⟨c1, c2⟩ := hc
    have hcl : t.closes = [] := (openFromTick_fresh h2).2.2.2.1
    have hte : t.epic = e := (openFromTick_fresh h2).1
    unfold Spec.banked Spec.pending
    simp only [hcl, List.map_nil, List.sum_nil, sub_zero, true_and]
    by_cases hl : left = 0
    · rw [hl]; simp
    · have hopen : ({ t with openQty := left } : Trade).openedQty ≠ 0 := by
        unfold Trade.openedQty Trade.closedQty; simp only [hcl, List.map_nil, List.sum_nil, sub_zero]; exact hl
      have hcur : t.curClose = Spec.exitQuote t.dir ep.lastTick := c2 hopen ep (by simp only [hte]; exact hep)
      rw [hcur, ← mul_neg, ← cent_neg, ← Arith.neg, mul_comm]
      unfold Spec.gain
      cases d
      · simp only [Trade.openFromTick, Except.ok.injEq] at h2
        subst h2
        simp only [Trade.new, Spec.move, Spec.exitQuote, neg_sub]
      · simp only [Trade.openFromTick, Except.ok.injEq] at h2
        subst h2
        simp only [Trade.new, Spec.move, Spec.exitQuote, neg_sub]
  rw [List.filterMap_append, List.map_append, List.sum_append, List.map_append, List.sum_append]
  have hs' := hsum st.trades (fun _ h => h)
  have hcase : ∀ r : List ℕ, r = (if some s = some s ∧
      ((Spec.openTradesOf w pr (Spec.flip d) (some s)).map (Spec.openQuantity w)).sum < q then [w.trades.length] else []) →
      ((r.filterMap (fun i => w'.trades[i]?)).map Spec.banked).sum +
        ((r.filterMap (fun i => w'.trades[i]?)).map Spec.pending).sum =
      - (left * cent (fl (ep.lastTick.ask - ep.lastTick.bid))) := by
    intro r hr0
    split_ifs at hr0 with hc
    · have h2'' : w'.trades[w.trades.length]? = some { t with openQty := left } := h2'
      rw [hr0]
      simp only [List.filterMap_cons, h2'', List.filterMap_nil, List.map_cons, List.map_nil, List.sum_cons, List.sum_nil,
        add_zero]
      rw [hnew.1, hnew.2, zero_add]
    · have : left = 0 := by
        have : ¬ ((Spec.openTradesOf w pr (Spec.flip d) (some s)).map (Spec.openQuantity w)).sum < q := fun h => hc ⟨rfl, h⟩
        show max 0 _ = _
        omega
      rw [this, hr0]; simp
  have hcase := hcase _ rfl
  linear_combination hs' + hcase

end

/-! ## Concrete cases and counterexamples -/

/-- Two epics, each with its own provider. -/
def Marked.world : World := { Demo.world with
  epics := [Epic.new "E0" Zone.utc 0 (23 * hourUs) [] [] 0, Epic.new "E1" Zone.utc 0 (23 * hourUs) [] [] 1]
  providers := [Provider.new .backtests, Provider.new .backtests] }

theorem Marked.world_init : Marked.world.Init := by
  refine ⟨?_, Demo.world_init.strategies, ?_, rfl, rfl⟩
  · intro e he
    simp only [Marked.world, List.mem_cons, List.not_mem_nil, or_false] at he
    rcases he with rfl | rfl
    · exact ⟨_, _, _, _, _, _, 0, by decide, rfl⟩
    · exact ⟨_, _, _, _, _, _, 1, by decide, rfl⟩
  · intro p hp
    simp only [Marked.world, List.mem_cons, List.not_mem_nil, or_false, or_self] at hp
    subst hp
    exact ⟨_, rfl⟩

/-- Long 3 on epic 0 and short 2 on epic 1, both ticking on; the second tick of epic 0 is anterior and rejected. -/
def Marked.prog : List Cmd :=
  [.addStrategy 0 0, .addStrategy 1 0, .tick 0 (Demo.tk 480 10 12), .op (.openTrade 0 (some 0) (some .buy) 3),
   .tick 1 (Demo.tk 480 20 21), .op (.openTrade 1 (some 0) (some .sell) 2), .tick 0 (Demo.tk 479 50 51)]

theorem Marked.prog_delegates : Spec.Delegates Demo.quiet Marked.prog := by
  refine ⟨fun _ _ _ _ => trivial, ?_⟩
  intro o ho
  simp only [Marked.prog, List.mem_cons, List.not_mem_nil, or_false, reduceCtorEq, false_or, Cmd.op.injEq] at ho
  rcases ho with rfl | rfl
  · exact ⟨trivial, by show (0 : ℤ) ≤ 3; decide⟩
  · exact ⟨trivial, by show (0 : ℤ) ≤ 2; decide⟩

/-- Boolean form of `Spec.FramesHold`. -/
def Marked.holds [Arith] (env : Env) : World → List Cmd → Bool
  | _, [] => true
  | w, c :: l => (match c with
      | .tick e k => match w.epics[e]? with
        | none => true
        | some ep => (Spec.localTick ep.zone k).dt.lt ep.lastTick.dt || decide ((ep.accept (Spec.localTick ep.zone k)).2 = none)
      | _ => true) && Marked.holds env (w.exec env c).1 l

theorem Marked.holds_spec [Arith] (env : Env) (l : List Cmd) : ∀ w, Marked.holds env w l = true → Spec.FramesHold env w l := by
  induction l with
  | nil => intro w _; trivial
  | cons c l ih =>
    intro w h
    unfold Marked.holds at h
    rw [Bool.and_eq_true] at h
    refine ⟨?_, ih _ h.2⟩
    rintro e k ep rfl hep hlt
    have h1 := h.1
    simp only [hep, hlt, Bool.false_or, decide_eq_true_eq] at h1
    exact h1

theorem Marked.prog_tidy : letI := Arith.exact; Spec.Tidy Demo.quiet Marked.world Marked.prog := by
  letI := Arith.exact
  refine ⟨by decide, Marked.holds_spec _ _ _ (by decide +kernel), ?_⟩
  intro e k hk
  simp only [Marked.prog, List.mem_cons, List.not_mem_nil, or_false, reduceCtorEq, false_or, Cmd.tick.injEq] at hk
  rcases hk with ⟨rfl, rfl⟩ | ⟨rfl, rfl⟩ | ⟨rfl, rfl⟩ <;> simp [Demo.tk]

/-- C60, C61, C62 on that program: the trades stand at 10 and 21, the strategy at -8; a tick 12/13.5 of epic 0 brings
3 * 2, a SELL of 5 then costs the spread of the 2 that are left. -/
example : letI := Arith.exact
    let w := Marked.world.runCmds Demo.quiet Marked.prog
    let own := fun (w : World) => ((w.strategies[0]?).elim [] Strategy.trades).filterMap (fun i => w.trades[i]?)
    let w1 := (w.onNewTick Demo.quiet 0 (Demo.tk 481 12 (27/2))).1
    let w2 := (w1.step (.openTrade 0 (some 0) (some .sell) 5)).1
    w.trades.map Trade.curClose = [10, 21] ∧ strategyResult (own w) .none = -8 ∧
    (w.onNewTick Demo.quiet 0 (Demo.tk 481 12 (27/2))).2 = none ∧
    strategyResult (own w1) .none = -2 ∧ Spec.held .buy 0 (own w) = 3 ∧ Spec.held .sell 0 (own w) = 0 ∧
    w2.trades.map Trade.openedQty = [0, 2, 2] ∧ strategyResult (own w2) .none = -5 := by decide +kernel

/-- The same in binary64 at prices that are no floats: before the tick the result is that of 3 * (1.1 - 1.2), after it
that of 3 * (1.3 - 1.2); a SELL of 5 then costs 2 * 0.1.  Amounts are far within the range. -/
example : letI := Arith.binary64
    let tk := fun m b a => Demo.tk m (fl b) (fl a)
    let w := Marked.world.runCmds Demo.quiet [.addStrategy 0 0, .tick 0 (tk 480 (11/10) (12/10)),
      .op (.openTrade 0 (some 0) (some .buy) 3)]
    let own := fun (w : World) => ((w.strategies[0]?).elim [] Strategy.trades).filterMap (fun i => w.trades[i]?)
    let w1 := (w.onNewTick Demo.quiet 0 (tk 481 (13/10) (14/10))).1
    let w2 := (w1.step (.openTrade 0 (some 0) (some .sell) 5)).1
    let inRange := fun own => ((Spec.effort own : ℚ) * max 1 (own.map Spec.turnover).sum ≤ 2 ^ 43)
    inRange (own w) ∧ inRange (own w1) ∧ inRange (own w2) ∧
    strategyResult (own w) .none = fl (-3/10) ∧ (w.onNewTick Demo.quiet 0 (tk 481 (13/10) (14/10))).2 = none ∧
    strategyResult (own w1) .none = fl (-3/10 + 3 * (13/10 - 11/10)) ∧
    strategyResult (own w2) .none = fl (3/10 - 2 * (1/10)) := by decide +kernel

/-- C60 fails for epics that share a provider. -/
theorem C60_false : ¬ @Spec.C60 Arith.exact := by
  letI := Arith.exact
  intro h
  have := h Demo.quiet Demo.world [.tick 1 (Demo.tk 480 10 12), .op (.openTrade 1 (some 0) (some .buy) 1),
    .tick 0 (Demo.tk 481 20 22)] Demo.world_init ⟨fun _ _ _ _ => trivial, by
      intro o ho
      simp only [List.mem_cons, List.not_mem_nil, or_false, reduceCtorEq, false_or, Cmd.op.injEq] at ho
      subst ho
      exact ⟨trivial, by show (0 : ℤ) ≤ 1; decide⟩⟩
  revert this
  decide +kernel

/-- C60 fails on a quote with a bid of 0, own provider or not: the trade starts at its opening value. -/
theorem C60_false_zero_quote : letI := Arith.exact
    ∃ l : List Cmd, Spec.Delegates Demo.quiet l ∧ Spec.FramesHold Demo.quiet Marked.world l ∧
      ∃ t ep, (Marked.world.runCmds Demo.quiet l).trades = [t] ∧ Spec.IsOpen t ∧
        (Marked.world.runCmds Demo.quiet l).epics[t.epic]? = some ep ∧ Spec.exitQuote t.dir ep.lastTick = 0 ∧
        t.curClose = 12 := by
  letI := Arith.exact
  refine ⟨[.tick 0 (Demo.tk 480 0 12), .op (.openTrade 0 (some 0) (some .buy) 1)], ⟨fun _ _ _ _ => trivial, ?_⟩,
    Marked.holds_spec _ _ _ (by decide +kernel), _, _, rfl, by decide +kernel, rfl, by decide +kernel, by decide +kernel⟩
  intro o ho
  simp only [List.mem_cons, List.not_mem_nil, or_false, reduceCtorEq, false_or, Cmd.op.injEq] at ho
  subst ho
  exact ⟨trivial, by show (0 : ℤ) ≤ 1; decide⟩

/-- C60 fails when a frame set raises: the epic has the new tick, the trade the old value. -/
theorem C60_false_frame_error : letI := Arith.exact
    ∃ l : List Cmd, Spec.Delegates Demo.quiet l ∧ (∀ e k, Cmd.tick e k ∈ l → (k.bid = 0 ↔ k.ask = 0)) ∧
      ∃ t ep, (Marked.world.runCmds Demo.quiet l).trades = [t] ∧ Spec.IsOpen t ∧
        (Marked.world.runCmds Demo.quiet l).epics[t.epic]? = some ep ∧ Spec.exitQuote t.dir ep.lastTick = 20 ∧
        t.curClose = 10 := by
  letI := Arith.exact
  refine ⟨[.tick 0 (Demo.tk 480 10 12), .op (.openTrade 0 (some 0) (some .buy) 1),
      .addFrameSet 0 "F" ((⟨.tick, 1, 10, [], [], []⟩ : FrameSet).addIndicator ⟨"r", .rsi 0 none, false⟩).1,
      .tick 0 (Demo.tk 481 20 22)],
    ⟨fun _ _ _ _ => trivial, ?_⟩, ?_, _, _, rfl, by decide +kernel, rfl, by decide +kernel, by decide +kernel⟩
  · intro o ho
    simp only [List.mem_cons, List.not_mem_nil, or_false, reduceCtorEq, false_or, Cmd.op.injEq] at ho
    subst ho
    exact ⟨trivial, by show (0 : ℤ) ≤ 1; decide⟩
  · intro e k hk
    simp only [List.mem_cons, List.not_mem_nil, or_false, reduceCtorEq, false_or, Cmd.tick.injEq] at hk
    rcases hk with ⟨rfl, rfl⟩ | ⟨rfl, rfl⟩ <;> simp [Demo.tk]

end Estrade
