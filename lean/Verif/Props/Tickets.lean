import Verif.Lemmas.Tickets
import Verif.Props.Books

/-!
# C98: trade objects built by the caller
-/

set_option linter.style.haveILetI false
set_option linter.unusedSectionVars false
set_option autoImplicit false

namespace Estrade

/-- Spec: every new trade object is handed over when it is built, and only then. -/
def Spec.Placing : AnyCmd → Prop
  | .build _ => False
  | .submit _ _ => False
  | _ => True

/-- Spec: moreover no quantity is negative. -/
def Spec.ValidOrder : AnyCmd → Prop
  | .set c => Spec.SetValid c
  | .place _ k => 0 ≤ k.qty
  | .request _ _ _ => True
  | .build _ => False
  | .submit _ _ => False

/-- Spec: the arguments with which `epic.open_trade` builds its trade. -/
def Spec.ticketAt (k : Tick) (e : ℕ) (d : Dir) (q : ℤ) (s : Option ℕ) : Ticket :=
  ⟨d, q, Spec.entryQuote d k, k.dt, e, some (Spec.exitQuote d k), s, .created⟩

section
variable [Arith]

/-! ## Programs of the other models -/

theorem any_prog (tick : TickFn) (p : FProg) (w : World) : p.any.run tick w = p.run tick w := by
  induction p generalizing w with
  | done => rfl
  | raise e => rfl
  | act c k ih => exact ih _ _ _

theorem any_strategies (tick : TickFn) (env : FEnv) (e : ℕ) (b : Bool) (n : ℕ) (l : List ℕ) : ∀ w : World,
    hexecStrategies (env.any.hook tick) e b n w l = fexecStrategies tick env e b n w l := by
  have hcall : ∀ (w : World) s cb, w.hcall (env.any.hook tick) s cb e = w.fcall tick env s cb e :=
    fun w s cb => any_prog tick _ _
  have hif : ∀ c (w : World) s cb, w.hcallIf (env.any.hook tick) c s cb e = w.fcallIf tick env c s cb e := by
    intro c w s cb; unfold World.hcallIf World.fcallIf; rw [hcall]
  have hone : ∀ (w : World) s, w.hexecStrategy (env.any.hook tick) e s b = w.fexecStrategy tick env e s b := by
    intro w s
    unfold World.hexecStrategy World.fexecStrategy
    rcases w.epics[e]? with _ | ep
    · rfl
    · rcases w.strategies[s]? with _ | st
      · rfl
      · simp only
        unfold World.hnotifyAll World.fnotifyAll
        simp only [hif, hcall]
  induction l with
  | nil => intro w; rfl
  | cons s rest ih =>
    intro w
    unfold hexecStrategies fexecStrategies
    rw [hone]
    have : (fun w => hexecStrategies (env.any.hook tick) e b n w rest) = fun w => fexecStrategies tick env e b n w rest :=
      funext ih
    rw [this]

theorem any_tick (env : FEnv) (d : ℕ) : World.htick env.any.hook d = World.ftick env d := by
  induction d with
  | zero => rfl
  | succ d ih =>
    funext w e k
    unfold World.htick World.ftick
    rcases w.epics[e]? with _ | ep
    · rfl
    · simp only [any_strategies, ih]
      split_ifs
      · rfl
      · rcases (ep.accept { k with dt := k.dt.to ep.zone }).2 with _ | err <;> rfl

/-- C98: if nobody builds trades, the runs are those of C97. -/
theorem C98_conservative (env : FEnv) (d : ℕ) (w : World) (l : List SetCmd) :
    w.arun env.any d (l.map .set) = w.frun env d l := by
  unfold World.arun World.frun
  rw [List.foldl_map, any_tick]
  rfl

/-! ## Runs -/

theorem placing_lasting : Lasting False Spec.Placing BookInv where
  prim u v hu h := hu.prim h
  rest u v e1 e2 e3 e4 hu := hu.same e1 e2 e3 e4
  valid v := v.elim
  new tick w c hc hn hw := by
    cases c with
    | set c => exact absurd rfl (hn c)
    | build k => exact hc.elim
    | submit p t => exact hc.elim
    | place p k => exact (place_books hw p k).1
    | request p t i =>
      exact hw.quiet (request_quiet w p t i).1 (by rw [(aexec_frame tick w (.request p t i) hn).1]) 

theorem valid_lasting : Lasting True Spec.ValidOrder (fun w => BookInv w ∧ NonNeg w) where
  prim u v hu h := ⟨hu.1.prim h, h.nonNeg hu.2⟩
  rest u v e1 e2 e3 e4 hu := ⟨hu.1.same e1 e2 e3 e4, by have := hu.2; unfold NonNeg at this ⊢; rw [← e1]; exact this⟩
  valid _ c hc := hc
  new tick w c hc hn hw := by
    cases c with
    | set c => exact absurd rfl (hn c)
    | build k => exact hc.elim
    | submit p t => exact hc.elim
    | place p k => exact ⟨(place_books hw.1 p k).1, (place_books hw.1 p k).2 hc hw.2⟩
    | request p t i =>
      refine ⟨hw.1.quiet (request_quiet w p t i).1 (by rw [(aexec_frame tick w (.request p t i) hn).1]), ?_⟩
      show NonNeg (w.request p t i).1
      unfold NonNeg
      rw [(request_quiet w p t i).2]; exact hw.2

theorem placing_books {env : AEnv} (henv : env.All Spec.Placing) (d : ℕ) {w0 : World} (h0 : w0.Init) (l : List AnyCmd)
    (hl : ∀ c ∈ l, Spec.Placing c) : BookInv (w0.arun env d l) :=
  (lasting_run placing_lasting henv d l hl w0 (Init.epicsOk h0) (Init.regInv h0).toBookInv).2

theorem valid_books {env : AEnv} (henv : env.All Spec.ValidOrder) (d : ℕ) {w0 : World} (h0 : w0.Init) (l : List AnyCmd)
    (hl : ∀ c ∈ l, Spec.ValidOrder c) : BookInv (w0.arun env d l) ∧ NonNeg (w0.arun env d l) :=
  (lasting_run valid_lasting henv d l hl w0 (Init.epicsOk h0)
    ⟨(Init.regInv h0).toBookInv, by unfold NonNeg; rw [h0.trades]; simp⟩).2

theorem all_tallied (env : AEnv) (d : ℕ) {w0 : World} (h0 : w0.Init) (l : List AnyCmd) : Tallied (w0.arun env d l) := by
  refine (lasting_run tallied_lasting (env := env) (fun _ _ _ _ => AProg.all_true _) d l (fun _ _ => trivial) w0
    (Init.epicsOk h0) ?_).2
  have hp : ∀ x ∈ w0.providers.map Provider.trades, x = [] := by
    intro x hx
    obtain ⟨p, hp, rfl⟩ := List.mem_map.mp hx
    obtain ⟨k, rfl⟩ := h0.providers p hp
    rfl
  refine ⟨fun x hx i hi => (by rw [hp x hx] at hi; cases hi), fun i s hi => ?_, fun s x hx i => ?_⟩
  · rw [h0.trades] at hi; cases hi
  · rw [h0.trades]
    have : x = [] := by
      rw [List.getElem?_map] at hx
      rcases hs : w0.strategies[s]? with _ | st
      · rw [hs] at hx; cases hx
      · rw [hs] at hx
        simp only [Option.map_some, Option.some.injEq] at hx
        obtain ⟨r, rfl⟩ := h0.strategies st (List.mem_of_getElem? hs)
        exact hx.symm
    simp [this]

/-! ## The books -/

theorem Tallied.perm {w : World} (h : Tallied w) :
    (Spec.providerBook w).Perm (Spec.strategyBook w ++ (Spec.providerBook w).filter (Spec.unowned w)) := by
  rw [List.perm_iff_count]
  intro i
  have e1 : Spec.providerBook w = (w.providers.map Provider.trades).flatten := List.flatMap_def
  have e2 : Spec.strategyBook w = (w.strategies.map Strategy.trades).flatten := List.flatMap_def
  rw [List.count_append, e1, e2]
  set c := (w.providers.map Provider.trades).flatten.count i with hc
  have hO : (w.trades.map Trade.strategy)[i]? = (w.trades[i]?).map Trade.strategy := List.getElem?_map
  rcases hi : w.trades[i]? with _ | t
  · have h0 : c = 0 := h.fresh i (by simpa using hi)
    have h1 := count_owned (w.strategies.map Strategy.trades) i 0 none (by simp) (fun s x hx => by
      have := h.cnt s x hx i
      rw [hO, hi] at this
      simpa using this)
    rw [h1]
    have h2 : ((w.providers.map Provider.trades).flatten.filter (Spec.unowned w)).count i = 0 := by
      have := List.filter_sublist (p := Spec.unowned w) (l := (w.providers.map Provider.trades).flatten)
      have := this.count_le i
      omega
    rw [h2, h0]; rfl
  · have h1 := count_owned (w.strategies.map Strategy.trades) i c t.strategy
      (fun s hs => h.own i s (by rw [hO, hi, Option.map_some, hs])) (fun s x hx => by
        have := h.cnt s x hx i
        rw [hO, hi] at this
        simpa using this)
    rw [h1]
    rcases hs : t.strategy with _ | s
    · rw [List.count_filter (by unfold Spec.unowned; rw [hi]; simp [hs])]
      simp [hc]
    · have : ((w.providers.map Provider.trades).flatten.filter (Spec.unowned w)).count i = 0 := by
        rw [List.count_eq_zero]
        intro hm
        have := (List.mem_filter.mp hm).2
        unfold Spec.unowned at this
        rw [hi] at this
        simp [hs] at this
      rw [this]; simp

/-- C98, books: whatever trades user code builds, and however often it hands them to providers, the trades listed by the
providers are, with multiplicity, those listed by the strategies and those without a strategy. -/
theorem C98_books (env : AEnv) (d : ℕ) (w0 : World) (h0 : w0.Init) (l : List AnyCmd) :
    let w := w0.arun env d l
    (Spec.providerBook w).Perm (Spec.strategyBook w ++ (Spec.providerBook w).filter (Spec.unowned w)) :=
  (all_tallied env d h0 l).perm

/-- C98, totals: every total over the providers' trades is the total over the strategies' trades plus that of the trades
without a strategy. -/
theorem C98_totals (env : AEnv) (d : ℕ) (w0 : World) (h0 : w0.Init) (l : List AnyCmd) (f : Trade → ℚ) :
    let w := w0.arun env d l
    Spec.over w f (Spec.providerBook w) =
      Spec.over w f (Spec.strategyBook w) + Spec.over w f ((Spec.providerBook w).filter (Spec.unowned w)) := by
  intro w
  rw [← over_append]
  exact over_perm w f (C98_books env d w0 h0 l)

/-- C98, registration: if each trade built is handed over once, a trade of positive size is in the list of one provider, once,
and of its own strategy, once, and in no other. -/
theorem C98_registered {env : AEnv} (henv : env.All Spec.Placing) (d : ℕ) (w0 : World) (h0 : w0.Init) (l : List AnyCmd)
    (hl : ∀ c ∈ l, Spec.Placing c) (i : ℕ) (t : Trade) (ht : (w0.arun env d l).trades[i]? = some t) (hq : 0 < t.openQty) :
    (∃ p₀, p₀ < (w0.arun env d l).providers.length ∧
      ∀ (p : ℕ) (pr : Provider), (w0.arun env d l).providers[p]? = some pr →
        Spec.times i pr.trades = if p = p₀ then 1 else 0) ∧
    ∀ (s : ℕ) (st : Strategy), (w0.arun env d l).strategies[s]? = some st →
      Spec.times i st.trades = if t.strategy = some s then 1 else 0 := by
  have hb := placing_books henv d h0 l hl
  obtain ⟨p₀, pr₀, g1, g2⟩ := hb.listed i t ht hq
  constructor
  · refine ⟨p₀, getElem?_lt g1, fun p pr hp => ?_⟩
    rw [times_of_increasing (hb.provInc p pr hp)]
    have : i ∈ pr.trades ↔ p = p₀ := by
      constructor
      · intro hm; exact hb.one i p pr p₀ pr₀ hp hm g1 g2
      · rintro rfl; rw [hp] at g1; injection g1 with g1; subst g1; exact g2
    simp only [this]
  · intro s st hs
    rw [times_of_increasing (hb.stratInc s st hs)]
    have : i ∈ st.trades ↔ t.strategy = some s := by
      rw [hb.stratOf i t s st ht hs]
      exact ⟨fun h => h.1, fun h => ⟨h, p₀, pr₀, g1, g2⟩⟩
    simp only [this]

/-- C98, quantities: if no quantity is negative and each trade built is handed over once, no trade is ever closed for more than it
was opened. -/
theorem C98_quantities {env : AEnv} (henv : env.All Spec.ValidOrder) (d : ℕ) (w0 : World) (h0 : w0.Init) (l : List AnyCmd)
    (hl : ∀ c ∈ l, Spec.ValidOrder c) :
    ∀ t ∈ (w0.arun env d l).trades, (t.closes.map TradeClose.qty).sum ≤ t.openQty := by
  intro t ht
  have := (valid_books henv d h0 l hl).2 t ht
  unfold Trade.openedQty Trade.closedQty at this
  linarith

/-! ## One order -/

/-- C98: `epic.open_trade` is the order of a trade at the quotes of the last tick of the epic, sent to its provider. -/
theorem C98_open_is_place {env : AEnv} (henv : env.All Spec.Placing) (d : ℕ) (w0 : World) (h0 : w0.Init) (l : List AnyCmd)
    (hl : ∀ c ∈ l, Spec.Placing c) (e : ℕ) (ep : Epic) (dir : Dir) (q : ℤ) (s : Option ℕ) :
    let w := w0.arun env d l
    w.epics[e]? = some ep → (∀ k, s = some k → k < w.strategies.length) →
      w.step (.openTrade e s (some dir) q) = w.place ep.provider (Spec.ticketAt ep.lastTick e dir q s) := by
  intro w hep hs
  have hb : BookInv w := placing_books henv d h0 l hl
  have hep' : EpicsOk w := (lasting_run placing_lasting henv d l hl w0 (Init.epicsOk h0) (Init.regInv h0).toBookInv).1
  obtain ⟨w', h1, h2⟩ := place_eq hb (hep' ep (List.mem_of_getElem? hep)) (k := Spec.ticketAt ep.lastTick e dir q s)
    (getElem?_lt hep) hs
  rw [h2]
  have h3 : Trade.openFromTick ep.lastTick e (some dir) q s = .ok (Spec.ticketAt ep.lastTick e dir q s).trade := by
    cases dir <;> rfl
  simp only [World.step, hep]
  rw [if_pos (by
    cases s with
    | none => rfl
    | some k => simpa using hs k rfl), h3]
  show orKeep w (w.providerOpen ep.provider _) = _
  rw [h1]; rfl

/-- C98, netting: a trade handed to a backtest provider is netted against the open trades of the opposite direction and the same
strategy which that provider lists, latest first, each closed at the last quote of its own epic; what is left of it keeps the
values it was built with and is listed by that provider. -/
theorem C98_placed {env : AEnv} (henv : env.All Spec.ValidOrder) (d : ℕ) (w0 : World) (h0 : w0.Init) (l : List AnyCmd)
    (hl : ∀ c ∈ l, Spec.ValidOrder c) (p : ℕ) (pr : Provider) (k : Ticket) :
    let w := w0.arun env d l
    w.providers[p]? = some pr → pr.kind = .backtests → k.epic < w.epics.length →
    (∀ s, k.strategy = some s → s < w.strategies.length) → 0 < k.qty →
    let opp := Spec.openTradesOf w pr (Spec.flip k.dir) k.strategy
    let os := opp.map (Spec.openQuantity w)
    let w' := (w.place p k).1
    (w.place p k).2 = none ∧
    (∀ (j i : ℕ), opp[j]? = some i → ∃ t ept c t', w.trades[i]? = some t ∧ w.epics[t.epic]? = some ept ∧
      (Spec.closings k.qty os)[j]? = some c ∧ w'.trades[i]? = some t' ∧
      t'.closes = t.closes ++ [⟨Spec.exitQuote t.dir ept.lastTick, c, ept.lastTick.dt, .created⟩] ∧
      t'.openQty = t.openQty) ∧
    (∀ i, i < w.trades.length → i ∉ opp → w'.trades[i]? = w.trades[i]?) ∧
    (∃ t, w'.trades[w.trades.length]? = some t ∧ t.epic = k.epic ∧ t.strategy = k.strategy ∧ t.dir = k.dir ∧ t.closes = [] ∧
      t.openQty = max 0 (k.qty - os.sum) ∧ t.openValue = k.openValue ∧ t.dt = k.dt ∧ t.status = k.status) ∧
    (∃ pr', w'.providers[p]? = some pr' ∧
      pr'.trades = pr.trades ++ (if os.sum < k.qty then [w.trades.length] else [])) ∧
    (∀ (s : ℕ) st, w.strategies[s]? = some st → ∃ st', w'.strategies[s]? = some st' ∧
      st'.trades = st.trades ++ (if k.strategy = some s ∧ os.sum < k.qty then [w.trades.length] else [])) := by
  intro w hpr hk he hs hq
  have hflip : Spec.flip k.dir = k.dir.opposite := by cases k.dir <;> rfl
  rw [hflip]
  obtain ⟨hb, hn⟩ := valid_books henv d h0 l hl
  obtain ⟨v, g1, g2⟩ := place_eq hb (getElem?_lt hpr) he hs
  obtain ⟨v', v1, v2, v3, v4, v5, v6, -, v8⟩ := providerOpen_backtests hb hn hpr hk k.trade rfl rfl rfl rfl hq.le
  rw [v1] at g1; injection g1 with g1; subst g1
  intro opp os w'
  have hw' : w' = v' := by show (w.place p k).1 = _; rw [g2]
  rw [hw']
  refine ⟨by rw [g2], ?_, v4, ⟨_, v2, rfl, rfl, rfl, rfl, rfl, rfl, rfl, rfl⟩, v6, v8⟩
  intro j i hji
  obtain ⟨x, epx, c, r, k1, k2, k3, k4, k5⟩ := v5 j i hji
  refine ⟨x, epx, c, _, k1, k2, k3, k5, ?_, (kept_closeFromTick x _ _).openQty⟩
  have hopen : x.closed = false := by
    have hm := List.mem_of_getElem? hji
    have := List.of_mem_filter hm
    rw [k1] at this
    simp only [decide_eq_true_eq] at this
    rw [Bool.eq_false_iff]; intro hc; exact this.2.2 ((Trade.closed_iff x).mp hc)
  unfold Trade.closeFromTick Trade.close
  simp only [C26_valued_at_exit_quote x epx.lastTick hopen]
  rw [← k4]
  simp [updateFromTick_eq]

/-- C98, exposure: an order moves the net open quantity of its strategy with that provider by its size in its direction, up to
the excess of C30 (open opposite trades that are closed in full by a quantity of 0). -/
theorem C98_exposure {env : AEnv} (henv : env.All Spec.ValidOrder) (d : ℕ) (w0 : World) (h0 : w0.Init) (l : List AnyCmd)
    (hl : ∀ c ∈ l, Spec.ValidOrder c) (p : ℕ) (pr pr' : Provider) (k : Ticket) :
    let w := w0.arun env d l
    w.providers[p]? = some pr → pr.kind = .backtests → k.epic < w.epics.length →
    (∀ s, k.strategy = some s → s < w.strategies.length) → 0 < k.qty → (w.place p k).1.providers[p]? = some pr' →
    Spec.exposure (w.place p k).1 k.strategy pr'.trades = Spec.exposure w k.strategy pr.trades + Spec.sign k.dir *
      (k.qty + Spec.excess k.qty ((Spec.openTradesOf w pr (Spec.flip k.dir) k.strategy).map (Spec.openQuantity w))) := by
  intro w hpr hk he hs hq hpr'
  have hflip : Spec.flip k.dir = k.dir.opposite := by cases k.dir <;> rfl
  rw [hflip]
  obtain ⟨hb, hn⟩ := valid_books henv d h0 l hl
  obtain ⟨v, g1, g2⟩ := place_eq hb (getElem?_lt hpr) he hs
  obtain ⟨v', v1, v2, v3, v4, v5, ⟨pr2, v6, v6'⟩, v7, -⟩ := providerOpen_backtests hb hn hpr hk k.trade rfl rfl rfl rfl hq.le
  rw [v1] at g1; injection g1 with g1; subst g1
  have hw' : (w.place p k).1 = v' := by rw [g2]
  rw [hw'] at hpr' ⊢
  rw [v6] at hpr'; injection hpr' with hpr'; subst hpr'
  have hpos : ∀ o ∈ (Spec.openTradesOf w pr k.dir.opposite k.strategy).map (Spec.openQuantity w), 0 < o := by
    intro o ho
    obtain ⟨i, hi', rfl⟩ := List.mem_map.mp ho
    have := List.of_mem_filter hi'
    unfold Spec.openQuantity
    rcases hx : w.trades[i]? with _ | x
    · rw [hx] at this; cases this
    · rw [hx] at this
      simp only [decide_eq_true_eq] at this
      have hn := hn x (List.mem_of_getElem? hx)
      unfold Trade.openedQty Trade.closedQty at hn
      simp only
      omega
  have hsum := v7 pr.trades ((hb.provInc _ pr hpr).imp (fun h => h.ne)) (by
      intro i hio
      have := List.mem_of_mem_filter hio
      rwa [List.mem_reverse] at this) (hb.provLt _ pr hpr)
  have hcl := closings_sum _ hpos k.qty hq
  have hsum : Spec.exposure v' k.strategy (pr.trades ++ [w.trades.length]) = Spec.exposure w k.strategy pr.trades +
      Spec.sign k.dir * ((Spec.closings k.qty
        ((Spec.openTradesOf w pr k.dir.opposite k.strategy).map (Spec.openQuantity w))).sum +
        max 0 (k.qty - ((Spec.openTradesOf w pr k.dir.opposite k.strategy).map (Spec.openQuantity w)).sum)) := hsum
  rw [hcl] at hsum
  rw [← hsum, v6']
  split_ifs with hc
  · rfl
  · rw [List.append_nil, exposure_snoc]
    intro x hx
    rw [v2] at hx; injection hx with hx; subst hx
    unfold Trade.openedQty Trade.closedQty
    have : k.trade.closes = [] := rfl
    have hqk : k.trade.openQty = k.qty := rfl
    simp only [this, List.map_nil, List.sum_nil, sub_zero]
    rw [hqk] at hc ⊢
    exact max_eq_left (by
      have := not_lt.mp hc
      linarith)

theorem submitLoop_others {p i : ℕ} (l : List ℕ) : ∀ (w w' : World) (n : Trade), submitLoop p i w l = .ok w' →
    w.trades[i]? = some n →
    (∃ m, w'.trades[i]? = some { n with openQty := m }) ∧
    ∀ (j : ℕ) t, w.trades[j]? = some t → j ≠ i → (j ∉ l ∨ t.dir = n.dir ∨ t.strategy ≠ n.strategy) →
      w'.trades[j]? = some t := by
  induction l with
  | nil =>
    intro w w' n h hn
    injection h with h; subst h
    exact ⟨⟨n.openQty, hn⟩, fun j t ht _ _ => ht⟩
  | cons a rest ih =>
    intro w w' n h hn
    have weak : ∀ (j : ℕ) (t : Trade), (j ∉ a :: rest ∨ t.dir = n.dir ∨ t.strategy ≠ n.strategy) →
        (j ∉ rest ∨ t.dir = n.dir ∨ t.strategy ≠ n.strategy) := by
      intro j t hj
      rcases hj with hj | hj
      · exact .inl fun hm => hj (List.mem_cons_of_mem _ hm)
      · exact .inr hj
    unfold submitLoop at h
    rcases ha : w.trades[a]? with _ | t
    · rw [hn, ha] at h; cases h
    · rw [hn, ha] at h
      simp only at h
      split_ifs at h with hd hs
      · obtain ⟨g1, g2⟩ := ih _ _ n h hn
        exact ⟨g1, fun j t ht hne hj => g2 j t ht hne (weak j t hj)⟩
      · rcases hc : w.closeOn p a (some (min t.openedQty n.openQty)) with err | u
        · rw [hc] at h; cases h
        · rw [hc] at h
          obtain ⟨t', ep, ht', -, hu⟩ := closeOn_eq hc
          rw [ha] at ht'; injection ht' with ht'; subst ht'
          have hai : a ≠ i := by
            rintro rfl
            rw [hn] at ha; injection ha with ha; subst ha
            revert hd; cases n.dir <;> simp [Dir.opposite]
          have hut : u.trades = w.trades.set a (t.closeFromTick ep.lastTick (some (min t.openedQty n.openQty))) := by
            rw [hu]; rfl
          set v : World := { u with
            trades := u.trades.modify i (fun x => { x with openQty := x.openQty - min t.openedQty n.openQty }) } with hv
          have hvi : v.trades[i]? = some { n with openQty := n.openQty - min t.openedQty n.openQty } := by
            show (u.trades.modify i _)[i]? = _
            rw [List.getElem?_modify, hut, List.getElem?_set_ne hai, hn]
            simp
          have hvj : ∀ (j : ℕ), j ≠ i → j ≠ a → v.trades[j]? = w.trades[j]? := by
            intro j h1 h2
            show (u.trades.modify i _)[j]? = _
            rw [List.getElem?_modify, hut, List.getElem?_set_ne h2.symm]
            simp [h1.symm]
          obtain ⟨⟨m, g1⟩, g2⟩ := ih v w' _ h hvi
          refine ⟨⟨m, g1⟩, fun j x hx hne hj => ?_⟩
          have hja : j ≠ a := by
            rintro rfl
            rw [ha] at hx; injection hx with hx; subst hx
            rcases hj with hj | hj | hj
            · exact hj (by simp)
            · rw [hd] at hj; revert hj; cases n.dir <;> simp [Dir.opposite]
            · exact hs hj
          exact g2 j x (by rw [hvj j hne hja]; exact hx) hne (weak j x hj)
      · obtain ⟨g1, g2⟩ := ih _ _ n h hn
        exact ⟨g1, fun j t ht hne hj => g2 j t ht hne (weak j t hj)⟩

/-- C98: whatever the world, `provider.open_trade(trade)` changes of the trade at most its size, and no other trade unless the
provider is a backtest one and lists it, open, with the opposite direction and the same strategy. -/
theorem C98_others (w : World) (p i : ℕ) (n : Trade) (hn : w.trades[i]? = some n) :
    (∃ m, (w.submit p i).1.trades[i]? = some { n with openQty := m }) ∧
    ∀ (j : ℕ) t, w.trades[j]? = some t → j ≠ i →
      (∀ pr, w.providers[p]? = some pr → pr.kind = .backtests → j ∈ pr.trades →
        t.closed = true ∨ t.dir = n.dir ∨ t.strategy ≠ n.strategy) →
      (w.submit p i).1.trades[j]? = some t := by
  have reg : ∀ (u : World) s, (u.register p i s).trades = u.trades := fun u s => (register_eq u p i s).1
  unfold World.submit
  rcases hp : w.providers[p]? with _ | pr
  · exact ⟨⟨n.openQty, hn⟩, fun j t ht _ _ => ht⟩
  · rw [hn]
    simp only
    rcases hk : pr.kind with _ | _
    · simp only
      rcases hs : submitLoop p i w (w.openedTrades pr) with err | u
      · exact ⟨⟨n.openQty, hn⟩, fun j t ht _ _ => ht⟩
      · obtain ⟨⟨m, g1⟩, g2⟩ := submitLoop_others _ _ _ n hs hn
        have hu : ∀ (j : ℕ) t, w.trades[j]? = some t → j ≠ i →
            (∀ pr', some pr = some pr' → pr'.kind = .backtests → j ∈ pr'.trades →
              t.closed = true ∨ t.dir = n.dir ∨ t.strategy ≠ n.strategy) → u.trades[j]? = some t := by
          intro j t ht hne hj
          refine g2 j t ht hne ?_
          by_cases hm : j ∈ w.openedTrades pr
          · right
            obtain ⟨h1, x, h2, h3⟩ := (mem_openedTrades w pr j).mp hm
            rw [ht] at h2; injection h2 with h2; subst h2
            rcases hj pr rfl hk h1 with h4 | h4
            · exact absurd ((Trade.closed_iff t).mp h4) h3
            · exact h4
          · exact .inl hm
        simp only [g1]
        split_ifs
        · exact ⟨⟨m, g1⟩, hu⟩
        · rw [reg]; exact ⟨⟨m, g1⟩, hu⟩
    · simp only
      rw [reg]
      exact ⟨⟨n.openQty, hn⟩, fun j t ht _ _ => ht⟩

/-- C98: a provider that is not a backtest one takes every trade as it is: no trade changes, one entry is added to its list and
to that of the strategy, one request is started. -/
theorem C98_custom (w : World) (p i : ℕ) (pr : Provider) (n : Trade) (hp : w.providers[p]? = some pr)
    (hk : pr.kind = .custom) (hn : w.trades[i]? = some n) :
    let w' := (w.submit p i).1
    (w.submit p i).2 = none ∧ w'.trades = w.trades ∧ w'.epics = w.epics ∧
    (∀ (q : ℕ) x, w.providers[q]? = some x → ∃ x', w'.providers[q]? = some x' ∧
      x'.trades = x.trades ++ (if q = p then [i] else []) ∧
      x'.threads = x.threads ++ (if q = p then [⟨.opening i, true⟩] else [])) ∧
    ∀ (s : ℕ) st, w.strategies[s]? = some st → ∃ st', w'.strategies[s]? = some st' ∧
      st'.trades = st.trades ++ (if n.strategy = some s then [i] else []) := by
  intro w'
  have hw : w.submit p i = (w.register p i n.strategy, none) := by
    unfold World.submit
    rw [hp, hn]
    simp only [hk]
  obtain ⟨e1, e2, e3, e4, -⟩ := register_eq w p i n.strategy
  have hw' : w' = w.register p i n.strategy := by show (w.submit p i).1 = _; rw [hw]
  rw [hw']
  refine ⟨by rw [hw], e1, e2, fun q x hx => ?_, fun s st hst => ?_⟩
  · rw [e3, List.getElem?_modify, hx]
    by_cases hq : p = q
    · subst hq
      exact ⟨_, by simp only [if_pos, Option.map_eq_map, Option.map_some]; rfl, by simp, by simp⟩
    · have hq' : q ≠ p := fun h => hq h.symm
      exact ⟨x, by simp [hq], by simp [hq'], by simp [hq']⟩
  · rw [e4]
    rcases hs : n.strategy with _ | r
    · exact ⟨st, hst, by simp⟩
    · simp only
      rw [List.getElem?_modify, hst]
      by_cases hr : r = s
      · subst hr
        exact ⟨_, by simp only [if_pos, Option.map_eq_map, Option.map_some]; rfl, by simp⟩
      · exact ⟨st, by simp [hr], by simp [hr]⟩

/-- Spec: the trade with the status of its close number `k` set, nothing else. -/
def Spec.closeMarked (t : Trade) (k : ℕ) (st : Status) : Trade :=
  { t with closes := t.closes.modify k (fun c => { c with status := st }) }

/-- C98: `close_trade` of a provider changes no trade, epic, strategy or other provider; it starts one request, which, when it
runs, sets the status of this close of this trade, to CONFIRMED on a backtest provider, and nothing else of any trade. -/
theorem C98_request (w : World) (p i k : ℕ) (pr : Provider) (t : Trade) (c : TradeClose) (hp : w.providers[p]? = some pr)
    (ht : w.trades[i]? = some t) (hc : t.closes[k]? = some c) (st : Option Status) :
    let w' := (w.request p i k).1
    let w'' := (w'.runThread p pr.threads.length st).1
    ((w.request p i k).2 = none ∧ w'.trades = w.trades ∧ w'.epics = w.epics ∧ w'.strategies = w.strategies ∧ w'.log = w.log ∧
      ∀ q, q ≠ p → w'.providers[q]? = w.providers[q]?) ∧
    (w'.runThread p pr.threads.length st).2 = none ∧
    (∀ j, j ≠ i → w''.trades[j]? = w.trades[j]?) ∧
    w''.trades[i]? = some (match pr.kind, st with
      | .backtests, _ => Spec.closeMarked t k .confirmed
      | .custom, some st => Spec.closeMarked t k st
      | .custom, none => t) := by
  intro w' w''
  have hlt : p < w.providers.length := (List.getElem?_eq_some_iff.mp hp).1
  have hw : w.request p i k = (w.modProvider p (fun pr => pr.spawn (.closing i k)), none) := by
    unfold World.request
    rw [if_pos ⟨hlt, by rw [ht, Option.bind_some, hc]; rfl⟩]
  have hw' : w' = w.modProvider p (fun pr => pr.spawn (.closing i k)) := by show (w.request p i k).1 = _; rw [hw]
  have hpr : w'.providers[p]? = some (pr.spawn (.closing i k)) := by
    rw [hw']
    unfold World.modProvider
    simp [hp]
  have hth : (pr.spawn (.closing i k)).threads[pr.threads.length]? = some ⟨.closing i k, true⟩ := by
    unfold Provider.spawn
    simp
  refine ⟨⟨by rw [hw], by rw [hw']; rfl, by rw [hw']; rfl, by rw [hw']; rfl, by rw [hw']; rfl, ?_⟩, ?_⟩
  · intro q hq
    rw [hw']
    unfold World.modProvider
    simp [Ne.symm hq]
  have ht' : w'.trades = w.trades := by rw [hw']; rfl
  have hkind : (pr.spawn (.closing i k)).kind = pr.kind := rfl
  have hset : ∀ (u : World) (s : Status), u.trades = w.trades →
      (∀ j, j ≠ i → (u.setStatus (.closing i k) s).trades[j]? = w.trades[j]?) ∧
      (u.setStatus (.closing i k) s).trades[i]? = some (Spec.closeMarked t k s) := by
    intro u s hu
    unfold World.setStatus Spec.closeMarked
    dsimp only
    rw [hu]
    exact ⟨fun j hj => by simp [Ne.symm hj], by simp [ht]⟩
  show (w'.runThread p pr.threads.length st).2 = none ∧ (∀ j, j ≠ i → (w'.runThread p pr.threads.length st).1.trades[j]? = _) ∧
    (w'.runThread p pr.threads.length st).1.trades[i]? = _
  unfold World.runThread
  simp only [hpr, hth, if_true, hkind]
  rcases pr.kind with _ | _
  · exact ⟨rfl, hset _ _ ht'⟩
  · rcases st with _ | st
    · exact ⟨rfl, fun j _ => by rw [← ht']; rfl, by rw [← ht] ; rw [← ht']; rfl⟩
    · exact ⟨rfl, hset _ _ ht'⟩

/-- C98: a close that does not exist, or no such provider: nothing happens. -/
theorem C98_request_refused (w : World) (p i k : ℕ)
    (h : w.providers[p]? = none ∨ ∀ t, w.trades[i]? = some t → t.closes[k]? = none) : w.request p i k = (w, some .attr) := by
  unfold World.request
  rw [if_neg]
  rintro ⟨h1, h2⟩
  rcases h with h | h
  · rw [List.getElem?_eq_none_iff] at h; omega
  · rcases ht : w.trades[i]? with _ | t
    · rw [ht] at h2; simp at h2
    · rw [ht, Option.bind_some, h t ht] at h2; simp at h2

end

/-! ## Concrete cases -/

namespace Demo

/-- The second strategy buys 3 at a price of its own, of both providers; the first one asks for the order to be closed. -/
def broker : AEnv := fun s cb _ _ => match s, cb with
  | 1, .everyTickOpen => .act (.place 0 ⟨.buy, 3, 11, (tk 480 10 12).dt, 0, none, some 1, .created⟩) fun _ _ =>
      .act (.place 1 ⟨.buy, 3, 11, (tk 480 10 12).dt, 0, some 10, some 1, .pending⟩) fun _ _ => .done
  | 0, .everyTick => .act (.request 1 0 0) fun _ _ => .done
  | _, _ => .done

/-- Two strategies, a tick, an order against the second strategy's trades with the second provider, a tick. -/
def brokered : List AnyCmd :=
  [.set (.cmd (.addStrategy 0 0)), .set (.cmd (.addStrategy 0 1)), .set (.cmd (.tick 0 (tk 480 10 12))),
   .place 1 ⟨.sell, 5, 20, (tk 480 10 12).dt, 0, none, some 1, .created⟩, .set (.cmd (.tick 0 (tk 481 11 13)))]

/-- A trade bought once and handed over twice. -/
def doubled : List AnyCmd :=
  [.set (.cmd (.tick 0 (tk 480 10 12))), .build ⟨.buy, 3, 12, (tk 480 10 12).dt, 0, some 10, some 0, .created⟩, .submit 0 0,
   .submit 0 0, .set (.cmd (.tick 0 (tk 481 15 17)))]

/-- A trade partly closed and then handed over again, to a provider that lists an opposite trade. -/
def resubmitted : List AnyCmd :=
  [.set (.cmd (.tick 0 (tk 480 10 12))), .build ⟨.buy, 5, 12, (tk 480 10 12).dt, 0, some 10, some 0, .created⟩, .submit 0 0,
   .set (.cmd (.op (.closeTrade 0 0 (some 3)))), .place 1 ⟨.sell, 4, 10, (tk 480 10 12).dt, 0, some 12, some 0, .created⟩,
   .submit 1 0]

/-- A trade with another provider than that of its epic. -/
def elsewhere : List AnyCmd :=
  [.set (.cmd (.tick 0 (tk 480 10 12))), .place 1 ⟨.buy, 3, 12, (tk 480 10 12).dt, 0, some 10, some 0, .created⟩,
   .set (.cmd (.tick 0 (tk 481 15 17)))]

/-- Nothing in the callbacks. -/
def mute : AEnv := fun _ _ _ _ => .done

end Demo

/-- C98_request: a close of 3 of 5 told to the second provider as well, whose request then confirms it; the trade itself stays as it was. -/
example : letI := Arith.exact
    let w := Demo.twoProviders.arun Demo.mute 1 (Demo.resubmitted.take 4)
    let w' := (w.request 1 0 0).1
    let w'' := (w'.runThread 1 0 (some .refused)).1
    w.providers.map (fun pr => pr.threads.length) = [2, 0] ∧ w'.providers.map (fun pr => pr.threads.length) = [2, 1] ∧
    w.trades.map (fun t => (t.status, t.closes.map TradeClose.status)) = [(.created, [.created])] ∧
    w'.trades.map (fun t => (t.status, t.closes.map TradeClose.status)) = [(.created, [.created])] ∧
    w''.trades.map (fun t => (t.status, t.closes.map TradeClose.status)) = [(.created, [.confirmed])] ∧
    (w.request 1 0 1).2 = some .attr := by
  letI := Arith.exact
  decide +kernel

/-- C98_registered, C98_quantities: two trades at a price of the caller with each provider; the sale of 5 closes the one of the
second provider and is netted in part by the next purchase there. -/
example : letI := Arith.exact
    let w := Demo.twoProviders.arun Demo.broker 1 Demo.brokered
    w.providers.map Provider.trades = [[0, 3], [1, 2, 4]] ∧ w.strategies.map Strategy.trades = [[], [0, 1, 2, 3, 4]] ∧
      w.trades.map Trade.openQty = [3, 3, 2, 3, 1] ∧
      w.trades.map (fun t => t.closes.map (fun c => (c.qty, c.closeValue))) = [[], [(3, 10)], [(2, 13)], [], []] ∧
      w.trades.map Trade.status = [.created, .pending, .created, .created, .pending] := by
  letI := Arith.exact
  decide +kernel

example : Demo.broker.All Spec.ValidOrder ∧ Demo.broker.All Spec.Placing := by
  constructor
  all_goals
    intro s cb e w
    unfold Demo.broker
    split
  · exact ⟨by simp [Spec.ValidOrder], fun _ _ => ⟨by simp [Spec.ValidOrder], fun _ _ => trivial⟩⟩
  · exact ⟨trivial, fun _ _ => trivial⟩
  · trivial
  · exact ⟨trivial, fun _ _ => ⟨trivial, fun _ _ => trivial⟩⟩
  · exact ⟨trivial, fun _ _ => trivial⟩
  · trivial

example : ∀ c ∈ Demo.brokered, Spec.ValidOrder c ∧ Spec.Placing c := by
  intro c hc
  simp only [Demo.brokered, List.mem_cons, List.not_mem_nil, or_false] at hc
  rcases hc with rfl | rfl | rfl | rfl | rfl <;> exact ⟨by simp [Spec.ValidOrder, Spec.SetValid, Cmd.Valid], trivial⟩

/-- C98_placed: the hypotheses of the order against the first purchase of the second provider, and what it does. -/
example : letI := Arith.exact
    let w := Demo.twoProviders.arun Demo.broker 1 (Demo.brokered.take 3)
    w.providers[1]?.map (fun pr => (pr.kind, Spec.openTradesOf w pr .buy (some 1), Spec.closings 5 [3])) =
      some (.backtests, [1], [3]) ∧ w.trades.length = 2 ∧ w.strategies.length = 2 ∧ w.epics.length = 2 := by
  letI := Arith.exact
  decide +kernel

/-- C98_exposure: 3 long before the sale of 5, 2 short after it. -/
example : letI := Arith.exact
    let w := Demo.twoProviders.arun Demo.broker 1 (Demo.brokered.take 3)
    let w' := Demo.twoProviders.arun Demo.broker 1 (Demo.brokered.take 4)
    Spec.exposure w (some 1) [1] = 3 ∧ Spec.exposure w' (some 1) [1, 2] = -2 ∧
      w'.providers.map Provider.trades = [[0], [1, 2]] := by
  letI := Arith.exact
  decide +kernel

/-- C98_open_is_place: a purchase through the epic. -/
example : letI := Arith.exact
    let w := Demo.twoProviders.arun Demo.mute 1 [.set (.cmd (.tick 0 (Demo.tk 480 10 12)))]
    (w.step (.openTrade 0 (some 0) (some .buy) 3)).1.trades.map (fun t => (t.openValue, t.curClose, t.openQty)) =
      [(12, 10, 3)] ∧
    (w.place 0 (Spec.ticketAt (Demo.tk 480 10 12) 0 .buy 3 (some 0))).1.trades.map
      (fun t => (t.openValue, t.curClose, t.openQty)) = [(12, 10, 3)] := by
  letI := Arith.exact
  decide +kernel

/-- C98_conservative: the run of C97. -/
example : letI := Arith.exact
    (Demo.twoProviders.arun Demo.meddler.any 1 (Demo.meddled.map .set)).trades.map Trade.result = [-4, -7] := by
  letI := Arith.exact
  decide +kernel

/-- C98_books: the trade handed over twice is listed twice by the provider and by the strategy. -/
example : letI := Arith.exact
    let w := Demo.twoProviders.arun Demo.mute 1 Demo.doubled
    Spec.providerBook w = [0, 0] ∧ Spec.strategyBook w = [0, 0] ∧ w.trades.map Trade.result = [9] ∧
      Spec.over w Trade.result (Spec.providerBook w) = 18 := by
  letI := Arith.exact
  decide +kernel

/-- C98_others: the second submission of `Demo.resubmitted` takes 4 of the trade's size and closes the opposite one. -/
example : letI := Arith.exact
    let w := Demo.twoProviders.arun Demo.mute 1 (Demo.resubmitted.take 5)
    w.trades.map Trade.openQty = [5, 4] ∧ (w.submit 1 0).1.trades.map Trade.openQty = [1, 4] ∧
      w.trades.map (fun t => t.closes.map TradeClose.qty) = [[3], []] ∧
      (w.submit 1 0).1.trades.map (fun t => t.closes.map TradeClose.qty) = [[3], [4]] := by
  letI := Arith.exact
  decide +kernel

/-- C98_custom: another class of provider does not net. -/
example : letI := Arith.exact
    let w0 : World := { Demo.world with providers := [Provider.new .backtests, Provider.new .custom] }
    let w := w0.arun Demo.mute 1 (Demo.resubmitted.take 5)
    w.trades.map Trade.openQty = [5, 4] ∧ (w.submit 1 0).1.trades.map Trade.openQty = [5, 4] ∧
      (w.submit 1 0).1.providers.map Provider.trades = [[0], [1, 0]] ∧
      (w.submit 1 0).1.strategies.map Strategy.trades = [[0, 1, 0], []] := by
  letI := Arith.exact
  decide +kernel

/-! ## What handing a trade over twice, or to another provider, breaks -/

/-- Spec: no list of a provider or of a strategy names a trade twice. -/
def Spec.ListedOnce (w : World) : Prop :=
  (∀ pr ∈ w.providers, pr.trades.Nodup) ∧ ∀ st ∈ w.strategies, st.trades.Nodup

/-- Spec: the result of a strategy is the total of the results of its trades. -/
def Spec.ResultIsTotal [Arith] (w : World) (s : ℕ) : Prop :=
  strategyResult (Spec.tradesOf w s) .none = ((w.trades.filter (fun t => decide (t.strategy = some s))).map Trade.result).sum

/-- Spec: open trades of an epic are valued at the last quotes of that epic. -/
def Spec.ValuedAtLast (w : World) : Prop :=
  ∀ t ∈ w.trades, ¬ t.closed → ∀ ep, w.epics[t.epic]? = some ep → t.curClose = Spec.exitQuote t.dir ep.lastTick

/-- C98: a trade handed over twice is listed twice, and its result counts twice. -/
theorem C98_twice_false : ∃ (A : Arith) (env : AEnv) (w0 : World) (l : List AnyCmd), w0.Init ∧
    ¬ Spec.ListedOnce (@World.arun A env 1 w0 l) ∧ ¬ @Spec.ResultIsTotal A (@World.arun A env 1 w0 l) 0 := by
  letI := Arith.exact
  refine ⟨Arith.exact, Demo.mute, Demo.twoProviders, Demo.doubled, Demo.twoProviders_init, ?_, ?_⟩
  · intro h
    have := h.1 ((Demo.twoProviders.arun Demo.mute 1 Demo.doubled).providers[0]'(by decide +kernel)) (List.getElem_mem _)
    revert this
    decide +kernel
  · unfold Spec.ResultIsTotal
    decide +kernel

/-- C98: a trade that was closed in part may, handed over again, end with less size than was closed, although no quantity passed
to any function was negative. -/
theorem C98_resubmit_false : ∃ (A : Arith) (env : AEnv) (w0 : World) (l : List AnyCmd), w0.Init ∧
    ∃ t ∈ (@World.arun A env 1 w0 l).trades, t.openQty < (t.closes.map TradeClose.qty).sum := by
  letI := Arith.exact
  exact ⟨Arith.exact, Demo.mute, Demo.twoProviders, Demo.resubmitted, Demo.twoProviders_init,
    (Demo.twoProviders.arun Demo.mute 1 Demo.resubmitted).trades[0]'(by decide +kernel), List.getElem_mem _,
    by decide +kernel⟩

/-- C98: a trade handed to another provider than that of its epic keeps its old value when the epic gets a tick. -/
theorem C98_elsewhere_false : ∃ (A : Arith) (env : AEnv) (w0 : World) (l : List AnyCmd), w0.Init ∧
    env.All Spec.ValidOrder ∧ (∀ c ∈ l, Spec.ValidOrder c) ∧ ¬ Spec.ValuedAtLast (@World.arun A env 1 w0 l) := by
  letI := Arith.exact
  refine ⟨Arith.exact, Demo.mute, Demo.twoProviders, Demo.elsewhere, Demo.twoProviders_init, fun _ _ _ _ => trivial, ?_, ?_⟩
  · intro c hc
    simp only [Demo.elsewhere, List.mem_cons, List.not_mem_nil, or_false] at hc
    rcases hc with rfl | rfl | rfl <;> simp [Spec.ValidOrder, Spec.SetValid, Cmd.Valid]
  · intro h
    have := h ((Demo.twoProviders.arun Demo.mute 1 Demo.elsewhere).trades[0]'(by decide +kernel)) (List.getElem_mem _)
      (by decide +kernel) ((Demo.twoProviders.arun Demo.mute 1 Demo.elsewhere).epics[0]'(by decide +kernel))
      (by
        have e1 : ((Demo.twoProviders.arun Demo.mute 1 Demo.elsewhere).trades[0]'(by decide +kernel)).epic = 0 := by
          decide +kernel
        rw [e1]; exact List.getElem?_eq_getElem _)
    revert this
    decide +kernel

end Estrade
