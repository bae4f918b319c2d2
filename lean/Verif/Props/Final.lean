import Verif.Props.Results

/-!
# C68: closed trades never change again; strategies without open trades keep their result
-/

set_option linter.style.haveILetI false
set_option linter.unusedSectionVars false
set_option autoImplicit false

namespace Estrade

section
variable [Arith]

/-- What stays of a closed trade. -/
structure Settled (t u : Trade) : Prop where
  closed : u.closed = true
  result : u.result = t.result
  closedResult : u.closedResult = t.closedResult
  closedQty : u.closedQty = t.closedQty
  cur : u.curClose = t.curClose
  min : u.minRes = t.minRes
  max : u.maxRes = t.maxRes

theorem Settled.refl {t : Trade} (h : t.closed = true) : Settled t t := ⟨h, rfl, rfl, rfl, rfl, rfl, rfl⟩

theorem Settled.run {t u : Trade} (h : Settled t u) (o : Spec.TradeOp) (hv : o.Valid) : Settled t (o.run u) := by
  obtain ⟨a1, a2, a3, a4, a5, a6, a7⟩ := run_frozen u h.closed o hv
  exact ⟨a6, a1.trans h.result, a7.trans h.closedResult, a2.trans h.closedQty, a3.trans h.cur, a4.trans h.min, a5.trans h.max⟩

theorem Settled.closeStatus {t u : Trade} (h : Settled t u) (k : ℕ) (st : Status) :
    Settled t { u with closes := (u.closes.modify k (fun c => { c with status := st })) } := by
  have e1 : (u.closes.modify k (fun c => { c with status := st })).map TradeClose.qty = u.closes.map TradeClose.qty :=
    map_modify_eq _ _ _ _ (fun _ => rfl)
  have e2 : (u.closes.modify k (fun c => { c with status := st })).map (closeResult u.dir u.openValue) =
      u.closes.map (closeResult u.dir u.openValue) := map_modify_eq _ _ _ _ (fun _ => rfl)
  have c1 : Trade.closedQty { u with closes := (u.closes.modify k (fun c => { c with status := st })) } = u.closedQty := by
    unfold Trade.closedQty; rw [e1]
  have c2 : Trade.closedResult { u with closes := (u.closes.modify k (fun c => { c with status := st })) } = u.closedResult := by
    unfold Trade.closedResult; rw [e2]
  have c3 : Trade.openedQty { u with closes := (u.closes.modify k (fun c => { c with status := st })) } = u.openedQty := by
    unfold Trade.openedQty; rw [c1]
  have c4 : Trade.closed { u with closes := (u.closes.modify k (fun c => { c with status := st })) } = true := by
    rw [Trade.closed_iff, c3, ← Trade.closed_iff]; exact h.closed
  refine ⟨c4, ?_, c2.trans h.closedResult, c1.trans h.closedQty, h.cur, h.min, h.max⟩
  rw [← h.result]
  unfold Trade.result Trade.openedResult Trade.openedResultAvg
  rw [c2, if_pos c4, if_pos h.closed, fmul_zero_left, fmul_zero_left]

theorem getElem?_modify_inv {α : Type} {P : α → Prop} {l : List α} {i : ℕ} (h : ∃ x, l[i]? = some x ∧ P x) (j : ℕ) (f : α → α)
    (hf : ∀ x, P x → P (f x)) : ∃ x, (l.modify j f)[i]? = some x ∧ P x := by
  obtain ⟨x, h1, h2⟩ := h
  rw [List.getElem?_modify, h1]
  refine ⟨_, rfl, ?_⟩
  simp only
  split_ifs
  · exact hf x h2
  · exact h2

theorem Prim.settled {w w' : World} (h : Prim True w w') (hn : NonNeg w) {i : ℕ} {t : Trade}
    (ht : ∃ u, w.trades[i]? = some u ∧ Settled t u) : ∃ u, w'.trades[i]? = some u ∧ Settled t u := by
  have happ : ∀ x : Trade, ∃ u, (w.trades ++ [x])[i]? = some u ∧ Settled t u := by
    intro x
    obtain ⟨u, h1, h2⟩ := ht
    exact ⟨u, by rw [List.getElem?_append_left (List.getElem?_eq_some_iff.mp h1).1]; exact h1, h2⟩
  cases h with
  | alloc x p hf hq hv => exact happ x
  | opened x p hf hv => rw [(register_epics _ _ _ _).2.2]; exact happ x
  | closed p j q _ _ h hv =>
    obtain ⟨x, ep, hx, -, rfl⟩ := closeOn_eq h
    obtain ⟨u, h1, h2⟩ := ht
    show ∃ u, (w.trades.set j (x.closeFromTick ep.lastTick q))[i]? = some u ∧ Settled t u
    rw [List.getElem?_set]
    by_cases hij : j = i
    · subst hij
      rw [h1] at hx
      injection hx with hx
      subst hx
      rw [if_pos rfl, if_pos (List.getElem?_eq_some_iff.mp h1).1]
      exact ⟨_, rfl, h2.run (.closeTick ep.lastTick q) (fun n hn' => hv trivial hn n (by injection hn'))⟩
    · rw [if_neg hij]
      exact ⟨u, h1, h2⟩
  | update j v => exact getElem?_modify_inv ht j _ (fun u hu => hu.run (.update v) (fun n hn => by cases hn))
  | close j v dt q hv =>
    exact getElem?_modify_inv ht j _ (fun u hu => hu.run (.close v dt q) (fun n hn => hv trivial n (by injection hn)))
  | quote j k => exact getElem?_modify_inv ht j _ (fun u hu => hu.run (.tick k) (fun n hn => by cases hn))
  | strat s f hf => exact ht
  | thread p j st =>
    have hset : ∀ (x : World) (tg : Target) (st : Status), (∃ u, x.trades[i]? = some u ∧ Settled t u) →
        ∃ u, (x.setStatus tg st).trades[i]? = some u ∧ Settled t u := by
      intro x tg st hx
      cases tg with
      | opening j => exact getElem?_modify_inv hx j _ (fun u hu => ⟨hu.closed, hu.result, hu.closedResult, hu.closedQty, hu.cur, hu.min, hu.max⟩)
      | closing j m => exact getElem?_modify_inv hx j _ (fun u hu => hu.closeStatus m st)
    unfold World.runThread
    rcases w.providers[p]? with _ | pr
    · exact ht
    · dsimp only
      rcases pr.threads[j]? with _ | th
      · exact ht
      · dsimp only
        split_ifs
        · cases pr.kind
          · exact hset _ _ _ ht
          · cases st
            · exact ht
            · exact hset _ _ _ ht
        · exact ht

theorem settled_run {env : Env} {w : World} (hw : Spec.ValidRun env w) (l : List Cmd) (hl : ∀ c ∈ l, c.Valid) {i : ℕ} {t : Trade}
    (ht : w.trades[i]? = some t) (hc : t.closed = true) : ∃ u, (w.runCmds env l).trades[i]? = some u ∧ Settled t u := by
  have hv : env.Valid := by obtain ⟨-, -, hv, -⟩ := hw; exact hv
  have := WSteps.inv (V := True) (I := fun x => NonNeg x ∧ ∃ u, x.trades[i]? = some u ∧ Settled t u) ?_
    (runCmds_steps (env := env) (fun _ => hv) l w hw.reachable.epicsOk (fun _ => hl)) ⟨hw.nonNeg, t, ht, .refl hc⟩
  · exact this.2
  · intro a b ha hb
    cases hb with
    | prim h => exact ⟨h.nonNeg ha.1, h.settled ha.1 ha.2⟩
    | log ev => exact ha
    | epics es h => exact ha

/-- C68: a trade that is closed at some moment of a run without negative quantities stays closed whatever ticks, callbacks, threads and
operations follow, and its quantities, its value, its result and the extremes of its result never change again. -/
theorem C68_closed_forever {env : Env} {w : World} (hw : Spec.ValidRun env w) (l : List Cmd) (hl : ∀ c ∈ l, c.Valid) (i : ℕ) (t : Trade)
    (ht : w.trades[i]? = some t) (hc : ¬ Spec.IsOpen t) :
    ∃ u, (w.runCmds env l).trades[i]? = some u ∧ ¬ Spec.IsOpen u ∧ u.result = t.result ∧ u.closedResult = t.closedResult ∧
      u.closedQty = t.closedQty ∧ u.curClose = t.curClose ∧ u.minRes = t.minRes ∧ u.maxRes = t.maxRes := by
  obtain ⟨u, h1, h2⟩ := settled_run hw l hl ht (t.closed_iff.mpr (by rw [isOpen_iff, not_not] at hc; exact hc))
  refine ⟨u, h1, ?_, h2.result, h2.closedResult, h2.closedQty, h2.cur, h2.min, h2.max⟩
  rw [isOpen_iff, not_not]
  exact u.closed_iff.mp h2.closed

/-- Spec: the trades of a strategy. -/
def Spec.book (w : World) (st : Strategy) : List Trade := st.trades.filterMap (fun i => w.trades[i]?)

theorem pfSums_congr {l l' : List Trade} (h : l'.map Trade.result = l.map Trade.result) : pfSums l' = pfSums l := by
  have : ∀ l : List Trade, pfSums l = (l.map Trade.result).foldl (fun s x => if 0 ≤ x then (fadd s.1 x, s.2) else (s.1, fadd s.2 x)) (0, 0) := by
    intro l
    unfold pfSums
    rw [List.foldl_map]
  rw [this, this, h]

/-- C68: a strategy whose trades are all closed keeps its result and its profit factor, and has no open trades, until it gets a new
trade. -/
theorem C68_flat_strategy {env : Env} {w : World} (hw : Spec.ValidRun env w) (l : List Cmd) (hl : ∀ c ∈ l, c.Valid) (s : ℕ)
    (st st' : Strategy) (hs : w.strategies[s]? = some st) (_hs' : (w.runCmds env l).strategies[s]? = some st')
    (hflat : ∀ t ∈ Spec.book w st, ¬ Spec.IsOpen t) (hsame : st'.trades = st.trades) :
    strategyResult (Spec.book (w.runCmds env l) st') .none = strategyResult (Spec.book w st) .none ∧
    profitFactor (Spec.book (w.runCmds env l) st') .none = profitFactor (Spec.book w st) .none ∧
    getTrades (Spec.book (w.runCmds env l) st') none true none = [] := by
  have hlt : ∀ i ∈ st.trades, i < w.trades.length := (C34_opening_order hw.reachable).2 s st hs |>.2
  have hrel : (Spec.book (w.runCmds env l) st').map Trade.result = (Spec.book w st).map Trade.result ∧
      ∀ t ∈ Spec.book (w.runCmds env l) st', ¬ Spec.IsOpen t := by
    unfold Spec.book at hflat ⊢
    rw [hsame]
    clear hsame hs
    revert hflat hlt
    generalize st.trades = is
    intro hflat hlt
    induction is with
    | nil => exact ⟨rfl, by simp⟩
    | cons i rest ih =>
      have hi : w.trades[i]? = some (w.trades[i]'(hlt i (by simp))) := List.getElem?_eq_getElem (hlt i (by simp))
      obtain ⟨u, h1, h2, h3, -⟩ := C68_closed_forever hw l hl i _ hi (hflat _ (by simp [hi]))
      obtain ⟨e1, e2⟩ := ih (fun t ht => hflat t (by
        obtain ⟨j, hj, hj'⟩ := List.mem_filterMap.mp ht
        exact List.mem_filterMap.mpr ⟨j, by simp [hj], hj'⟩)) (fun j hj => hlt j (by simp [hj]))
      rw [List.filterMap_cons_some h1, List.filterMap_cons_some hi, List.map_cons, List.map_cons, e1, h3]
      refine ⟨rfl, ?_⟩
      intro t ht
      rcases List.mem_cons.mp ht with rfl | ht
      · exact h2
      · exact e2 t ht
  refine ⟨?_, ?_, ?_⟩
  · unfold strategyResult TradesArg.resolve
    rw [hrel.1]
  · unfold profitFactor TradesArg.resolve
    rw [pfSums_congr hrel.1]
  · have : ∀ x : List Trade, (∀ t ∈ x, ¬ Spec.IsOpen t) → getTrades.go none true none x = [] := by
      intro x hx
      rw [getTrades_go]
      have : x.filter (Spec.selected none true) = [] := by
        rw [List.filter_eq_nil_iff]
        intro t ht
        simp [Spec.selected, hx t ht]
      rw [this]
      rfl
    exact this _ (fun t ht => hrel.2 t (List.mem_reverse.mp ht))

/-- C68: `close_opened_trades()` ends the account of a strategy: its result and its profit factor stay those of that moment until it
gets a new trade. -/
theorem C68_liquidation_is_final {env : Env} {w : World} (hw : Spec.ValidRun env w) (l : List Cmd) (hl : ∀ c ∈ l, c.Valid) (s : ℕ)
    (st st1 st' : Strategy) (hs : w.strategies[s]? = some st)
    (hs1 : (w.step (.closeOpened s none)).1.strategies[s]? = some st1)
    (hs' : ((w.step (.closeOpened s none)).1.runCmds env l).strategies[s]? = some st') (hsame : st'.trades = st1.trades) :
    strategyResult (Spec.book ((w.step (.closeOpened s none)).1.runCmds env l) st') .none =
      strategyResult (Spec.book (w.step (.closeOpened s none)).1 st1) .none ∧
    profitFactor (Spec.book ((w.step (.closeOpened s none)).1.runCmds env l) st') .none =
      profitFactor (Spec.book (w.step (.closeOpened s none)).1 st1) .none := by
  have hv1 : Spec.ValidRun env (w.step (.closeOpened s none)).1 := by
    obtain ⟨w0, h0, hv, l0, hl0, rfl⟩ := hw
    refine ⟨w0, h0, hv, l0 ++ [.op (.closeOpened s none)], ?_, ?_⟩
    · intro c hc
      rcases List.mem_append.mp hc with hc | hc
      · exact hl0 c hc
      · rw [List.mem_singleton.mp hc]
        intro n hn
        cases hn
    · unfold World.runCmds
      rw [List.foldl_append]
      rfl
  have hflat : ∀ t ∈ Spec.book (w.step (.closeOpened s none)).1 st1, ¬ Spec.IsOpen t := by
    intro t ht
    obtain ⟨i, hi, hi'⟩ := List.mem_filterMap.mp ht
    have hts : t.strategy = some s := ((hv1.reachable.regInv.stratOf i t s st1 hi' hs1).mp hi).1
    exact C39_none_open hw hs i t hi' hts
  obtain ⟨h1, h2, -⟩ := C68_flat_strategy hv1 l hl s st1 st' hs1 hs' hflat hsame
  exact ⟨h1, h2⟩

end

/-- Two trades of strategy 0, liquidated. -/
def Demo.liquidated : List Cmd := [.tick 1 (Demo.tk 480 10 12), .op (.openTrade 1 (some 0) (some .buy) 3),
  .op (.openTrade 1 (some 0) (some .buy) 2), .op (.openTrade 1 (some 1) (some .buy) 5), .tick 1 (Demo.tk 481 20 22),
  .op (.closeOpened 0 none)]

/-- What follows: ticks, another close of a closed trade, a trade of the other strategy. -/
def Demo.aftermath : List Cmd := [.tick 1 (Demo.tk 482 50 52), .op (.closeTrade 0 0 (some 2)), .op (.closeOpened 0 none),
  .op (.openTrade 1 (some 1) (some .buy) 1), .tick 1 (Demo.tk 483 5 7)]

/-- Concrete case of C68 and its hypotheses. -/
example : letI := Arith.exact
    Spec.ValidRun Demo.quiet (Demo.world.runCmds Demo.quiet Demo.liquidated) ∧ ∀ c ∈ Demo.aftermath, c.Valid := by
  letI := Arith.exact
  refine ⟨Demo.validRun _ ?_, ?_⟩
  · intro c hc
    simp only [Demo.liquidated, List.mem_cons, List.not_mem_nil, or_false] at hc
    rcases hc with rfl | rfl | rfl | rfl | rfl | rfl
    · trivial
    · show (0 : ℤ) ≤ 3; decide
    · show (0 : ℤ) ≤ 2; decide
    · show (0 : ℤ) ≤ 5; decide
    · trivial
    · intro n hn; cases hn
  · intro c hc
    simp only [Demo.aftermath, List.mem_cons, List.not_mem_nil, or_false] at hc
    rcases hc with rfl | rfl | rfl | rfl | rfl
    · trivial
    · intro n hn; injection hn with hn; subst hn; decide
    · intro n hn; cases hn
    · show (0 : ℤ) ≤ 1; decide
    · trivial

example : letI := Arith.exact
    let w := Demo.world.runCmds Demo.quiet Demo.liquidated
    let w' := w.runCmds Demo.quiet Demo.aftermath
    w.strategies.map Strategy.trades = [[0, 1], [2]] ∧ w'.strategies.map Strategy.trades = [[0, 1], [2, 3]] ∧
    w.trades.map Trade.openedQty = [0, 0, 5] ∧ w'.trades.map Trade.openedQty = [0, 0, 5, 1] := by decide +kernel

example : letI := Arith.exact
    let w := Demo.world.runCmds Demo.quiet Demo.liquidated
    let w' := w.runCmds Demo.quiet Demo.aftermath
    w.trades.map Trade.result = [24, 16, 40] ∧ w'.trades.map Trade.result = [24, 16, -35, -47] ∧
    w'.trades.map Trade.maxRes = [24, 16, 190, -2] ∧ (w'.trades.map fun t => t.closes.length) = [2, 1, 0, 0] := by decide +kernel

/-- C68 needs quantities that are not negative: `close_trade(trade, quantity=-2)` on a closed trade opens it again, and the next tick
moves its result. -/
theorem C68_negative_close :
    letI := Arith.exact
    let w := Demo.world.runCmds Demo.quiet Demo.liquidated
    let w' := w.runCmds Demo.quiet [.op (.closeTrade 0 0 (some (-2))), .tick 1 (Demo.tk 482 50 52)]
    (w.trades[0]?).map Trade.openedQty = some 0 ∧ (w.trades[0]?).map Trade.result = some 24 ∧
    (w'.trades[0]?).map Trade.openedQty = some 2 ∧ (w'.trades[0]?).map Trade.result = some 84 := by decide +kernel

end Estrade
