import Verif.Lemmas.Opening
import Verif.Lemmas.PerTrade
import Verif.Lemmas.EpicLog
import Verif.Demo

/-!
# C29-C34: repricing, netting, registration
-/

set_option linter.style.haveILetI false
set_option linter.unusedSectionVars false
set_option autoImplicit false

namespace Estrade

section
variable [Arith]

/-! ## C29 -/

/-- Spec: strategies whose callbacks do nothing. -/
def Spec.Silent (env : Env) : Prop := ∀ s cb e w, env s cb e w = .done

/-- Spec: a trade valued at the quotes of `k`: new closing value, extremes extended to the new result. -/
def Spec.repriced (t : Trade) (k : Tick) : Trade :=
  let u : Trade := { t with curClose := Spec.exitQuote t.dir k }
  { u with maxRes := max t.maxRes u.result, minRes := min t.minRes u.result }

/-- Spec: the quantity of `t` is not used up. -/
def Spec.IsOpen (t : Trade) : Prop := t.openQty - (t.closes.map TradeClose.qty).sum ≠ 0

instance (t : Trade) : Decidable (Spec.IsOpen t) := by unfold Spec.IsOpen; infer_instance

theorem isOpen_iff (t : Trade) : Spec.IsOpen t ↔ t.openedQty ≠ 0 := Iff.rfl

theorem updateFromTick_open (t : Trade) (k : Tick) (h : Spec.IsOpen t) :
    t.updateFromTick k = Spec.repriced t k := by
  have hc : t.closed = false := by
    rw [Bool.eq_false_iff]; intro hc; exact h ((Trade.closed_iff t).mp hc)
  rw [updateFromTick_eq]
  unfold Trade.update Spec.repriced
  rw [hc]
  simp only [Bool.false_eq_true, if_false]
  set u : Trade := { t with curClose := Spec.exitQuote t.dir k } with hu
  have h1 := Trade.updateMinMax_maxRes u
  have h2 := Trade.updateMinMax_minRes u
  have h3 : u.updateMinMax = { u with maxRes := u.updateMinMax.maxRes, minRes := u.updateMinMax.minRes } := by
    unfold Trade.updateMinMax; dsimp only; split_ifs <;> rfl
  rw [h3, h1, h2]

theorem notifyAll_silent {env : Env} (hs : Spec.Silent env) (w : World) (e s : ℕ) (b : Bool) :
    (w.notifyAll env e s b).2 = none ∧ (w.notifyAll env e s b).1.trades = w.trades := by
  have hcall : ∀ (w : World) cb, (w.call env s cb e).2 = none ∧ (w.call env s cb e).1.trades = w.trades := by
    intro w cb; unfold World.call; dsimp only; rw [hs]; exact ⟨rfl, rfl⟩
  have hif : ∀ (c : Bool) (w : World) cb, (w.callIf env c s cb e).2 = none ∧
      (w.callIf env c s cb e).1.trades = w.trades := by
    intro c w cb; unfold World.callIf; split_ifs
    · exact hcall w cb
    · exact ⟨rfl, rfl⟩
  have hthen : ∀ (r : World × Option PyErr) (f : World → World × Option PyErr), r.2 = none →
      r.1.trades = w.trades → (∀ u : World, u.trades = w.trades → (f u).2 = none ∧ (f u).1.trades = w.trades) →
      (andThen r f).2 = none ∧ (andThen r f).1.trades = w.trades := by
    intro r f h1 h2 h3
    obtain ⟨u, err⟩ := r
    simp only at h1 h2
    subst h1
    exact h3 u h2
  unfold World.notifyAll
  refine hthen _ _ (hif _ _ _).1 (hif _ _ _).2 (fun u hu => ?_)
  refine hthen _ _ (hif _ _ _).1 ((hif _ _ _).2.trans hu) (fun u hu => ?_)
  refine hthen _ _ (hif _ _ _).1 ((hif _ _ _).2.trans hu) (fun u hu => ?_)
  exact ⟨(hcall _ _).1, (hcall _ _).2.trans hu⟩

theorem execStrategies_silent {env : Env} (hs : Spec.Silent env) (e : ℕ) (b : Bool) (dt : DT) (l : List ℕ) :
    ∀ w : World, (execStrategies env e b dt w l).1.trades = w.trades := by
  induction l with
  | nil => intro w; rfl
  | cons s rest ih =>
    intro w
    unfold execStrategies
    have h1 : (w.execStrategy env e s b dt).1.trades = w.trades := by
      unfold World.execStrategy
      split
      · rfl
      · dsimp only
        split_ifs
        · exact (notifyAll_silent hs _ _ _ _).2
        · rfl
    rcases andThen_cases (w.execStrategy env e s b dt) (fun w => execStrategies env e b dt w rest) with ⟨-, h⟩ | ⟨-, h⟩
    · rw [h, ih, h1]
    · rw [h, h1]

/-- C29 as stated: exactly the open trades of the ticking epic are revalued (callbacks of the tick silent, no
exception). -/
def Spec.C29 : Prop :=
  ∀ (env : Env) (w : World), Spec.ValidRun env w → ∀ (e : ℕ) (ep : Epic) (k : Tick), w.epics[e]? = some ep →
    ∀ env' : Env, Spec.Silent env' → (w.onNewTick env' e k).2 = none →
    ∀ (i : ℕ) (t : Trade), w.trades[i]? = some t →
      (w.onNewTick env' e k).1.trades[i]? =
        some (if t.epic = e ∧ Spec.IsOpen t then Spec.repriced t (Spec.localTick ep.zone k) else t)

/-- The world the first callback of an accepted tick finds: exactly the open trades listed by the epic's provider
are revalued. -/
theorem before_callbacks {w : World} (hi : RegInv w) {e : ℕ} {ep : Epic} {k : Tick}
    (hep : w.epics[e]? = some ep) {pr : Provider} (hpr : w.providers[ep.provider]? = some pr) (env' : Env)
    (hacc : (Spec.localTick ep.zone k).dt.lt ep.lastTick.dt = false)
    (hfs : (ep.accept (Spec.localTick ep.zone k)).2 = none) :
    ∃ w1 : World, w.onNewTick env' e k = execStrategies env' e ep.marketOpen (Spec.localTick ep.zone k).dt w1
        (ep.strategies.map Prod.snd) ∧
      w1.epics = w.epics.set e (ep.accept (Spec.localTick ep.zone k)).1 ∧
      w1.log = w.log ++ [.accepted e (Spec.localTick ep.zone k)] ∧
      w1.strategies = w.strategies ∧ w1.providers = w.providers ∧ w1.trades.length = w.trades.length ∧
      ∀ (i : ℕ) (t : Trade), w.trades[i]? = some t → w1.trades[i]? =
        some (if i ∈ pr.trades ∧ Spec.IsOpen t then Spec.repriced t (Spec.localTick ep.zone k) else t) := by
  set k' := Spec.localTick ep.zone k with hk'
  set w0 : World := { w with epics := w.epics.set e (ep.accept k').1, log := w.log ++ [.accepted e k'] } with hw0
  have hget : ∀ (i : ℕ) (t : Trade), w.trades[i]? = some t →
      (w0.updateOpenTrades ep.provider k').trades[i]? =
        some (if i ∈ pr.trades ∧ Spec.IsOpen t then Spec.repriced t k' else t) := by
    intro i t ht
    have h1 : (w0.updateOpenTrades ep.provider k').trades = (w.updateOpenTrades ep.provider k').trades := by
      unfold World.updateOpenTrades
      show (match w.providers[ep.provider]? with
        | none => w0
        | some pr => (w0.openedTrades pr).foldl _ w0).trades = _
      rw [hpr]
      simp only
      rw [foldl_world_trades, foldl_world_trades]
      rfl
    rw [h1, updateOpenTrades_get hi hpr, ht]
    simp only [Option.map_some]
    congr 1
    by_cases h : i ∈ pr.trades ∧ Spec.IsOpen t
    · rw [if_pos h, if_pos ⟨h.1, h.2⟩, updateFromTick_open t k' h.2]
    · rw [if_neg h, if_neg (fun h' => h ⟨h'.1, h'.2⟩)]
  obtain ⟨r1, r2, r3, r4⟩ := updateOpenTrades_rest w0 ep.provider k'
  refine ⟨w0.updateOpenTrades ep.provider k', ?_, r1, r4, r3, r2, ?_, hget⟩
  · unfold World.onNewTick
    simp only [hep]
    change (if k'.dt.lt ep.lastTick.dt = true then _ else _) = _
    rw [hacc]
    simp only [Bool.false_eq_true, if_false]
    change (match (ep.accept k').2 with
      | some err => _
      | none => _) = _
    rw [hfs]
    rfl
  · unfold World.updateOpenTrades
    rcases w0.providers[ep.provider]? with _ | x
    · rfl
    · simp only
      rw [foldl_world_trades]
      have : ∀ (l : List ℕ) (ts : List Trade), (l.foldl (fun ts i => ts.modify i
          (fun t => t.updateFromTick k')) ts).length = ts.length := by
        intro l
        induction l with
        | nil => intro ts; rfl
        | cons a l ih => intro ts; rw [List.foldl_cons, ih]; simp
      exact this _ _

/-- The world the first callback of an accepted tick finds: exactly the open trades listed by the epic's provider
are revalued. -/
theorem C29_before_callbacks {env : Env} {w : World} (hw : Reachable env w) {e : ℕ} {ep : Epic} {k : Tick}
    (hep : w.epics[e]? = some ep) {pr : Provider} (hpr : w.providers[ep.provider]? = some pr) (env' : Env)
    (hacc : (Spec.localTick ep.zone k).dt.lt ep.lastTick.dt = false)
    (hfs : (ep.accept (Spec.localTick ep.zone k)).2 = none) :
    ∃ w1 : World, w.onNewTick env' e k = execStrategies env' e ep.marketOpen (Spec.localTick ep.zone k).dt w1
        (ep.strategies.map Prod.snd) ∧
      w1.epics = w.epics.set e (ep.accept (Spec.localTick ep.zone k)).1 ∧
      w1.log = w.log ++ [.accepted e (Spec.localTick ep.zone k)] ∧
      w1.strategies = w.strategies ∧ w1.providers = w.providers ∧ w1.trades.length = w.trades.length ∧
      ∀ (i : ℕ) (t : Trade), w.trades[i]? = some t → w1.trades[i]? =
        some (if i ∈ pr.trades ∧ Spec.IsOpen t then Spec.repriced t (Spec.localTick ep.zone k) else t) :=
  before_callbacks hw.regInv hep hpr env' hacc hfs

theorem onNewTick_ok_cases {env : Env} {w : World} {e : ℕ} {ep : Epic} {k : Tick} (hep : w.epics[e]? = some ep)
    (hok : (w.onNewTick env e k).2 = none) :
    (Spec.localTick ep.zone k).dt.lt ep.lastTick.dt = false ∧ (ep.accept (Spec.localTick ep.zone k)).2 = none := by
  unfold World.onNewTick at hok
  simp only [hep] at hok
  change (if (Spec.localTick ep.zone k).dt.lt ep.lastTick.dt = true then _ else _ : World × Option PyErr).2 = none
    at hok
  split_ifs at hok with h
  refine ⟨by simpa using h, ?_⟩
  change ((match (ep.accept (Spec.localTick ep.zone k)).2 with
      | some err => _
      | none => _) : World × Option PyErr).2 = none at hok
  rcases hx : (ep.accept (Spec.localTick ep.zone k)).2 with _ | err
  · rfl
  · rw [hx] at hok; cases hok

/-- C29, in general: what is revalued are the open trades listed by the provider of the epic. -/
theorem C29_provider_trades_repriced {env : Env} {w : World} (hw : Reachable env w) {e : ℕ} {ep : Epic} {k : Tick}
    (hep : w.epics[e]? = some ep) {pr : Provider} (hpr : w.providers[ep.provider]? = some pr) {env' : Env}
    (hs : Spec.Silent env') (hok : (w.onNewTick env' e k).2 = none) (i : ℕ) (t : Trade)
    (ht : w.trades[i]? = some t) :
    (w.onNewTick env' e k).1.trades[i]? =
      some (if i ∈ pr.trades ∧ Spec.IsOpen t then Spec.repriced t (Spec.localTick ep.zone k) else t) := by
  obtain ⟨h1, h2⟩ := onNewTick_ok_cases hep hok
  obtain ⟨w1, g1, -, -, -, -, -, g2⟩ := C29_before_callbacks hw hep hpr env' h1 h2
  rw [g1, execStrategies_silent hs]
  exact g2 i t ht

theorem epic_provider {env : Env} {w : World} (hw : Reachable env w) {e : ℕ} {ep : Epic}
    (hep : w.epics[e]? = some ep) : ∃ pr, w.providers[ep.provider]? = some pr :=
  ⟨_, List.getElem?_eq_getElem (hw.epicsOk ep (List.mem_of_getElem? hep))⟩

/-- C29 when no other epic uses the provider of the ticking epic.  Missing for the full statement: epics sharing a
provider (`C29_false`). -/
theorem C29_repriced_partial {env : Env} {w : World} (hw : Spec.ValidRun env w) {e : ℕ} {ep : Epic} {k : Tick}
    (hep : w.epics[e]? = some ep)
    (hown : ∀ (e' : ℕ) ep', w.epics[e']? = some ep' → ep'.provider = ep.provider → e' = e) {env' : Env}
    (hs : Spec.Silent env') (hok : (w.onNewTick env' e k).2 = none) (i : ℕ) (t : Trade)
    (ht : w.trades[i]? = some t) :
    (w.onNewTick env' e k).1.trades[i]? =
      some (if t.epic = e ∧ Spec.IsOpen t then Spec.repriced t (Spec.localTick ep.zone k) else t) := by
  have hi : RegInv w := hw.reachable.regInv
  obtain ⟨pr, hpr⟩ := epic_provider hw.reachable hep
  rw [C29_provider_trades_repriced hw.reachable hep hpr hs hok i t ht]
  have : (i ∈ pr.trades ∧ Spec.IsOpen t) ↔ (t.epic = e ∧ Spec.IsOpen t) := by
    refine and_congr_left (fun ho => ⟨fun hm => ?_, fun he => ?_⟩)
    · have h1 := hi.provOf i t ep.provider pr ht hpr hm
      unfold World.providerOf at h1
      rcases hx : w.epics[t.epic]? with _ | x
      · rw [hx] at h1; cases h1
      · rw [hx] at h1; injection h1 with h1
        exact hown _ x hx h1
    · obtain ⟨q1, q2, -⟩ := hw.quantities t (List.mem_of_getElem? ht)
      rw [isOpen_iff] at ho
      have hq : 0 < t.openQty := by unfold Trade.openedQty at q1 ho; omega
      obtain ⟨p, pr', h1, h2⟩ := hi.listed i t ht hq
      have h3 := hi.provOf i t p pr' ht h1 h2
      unfold World.providerOf at h3
      rw [he, hep] at h3
      injection h3 with h3
      subst h3
      rw [hpr] at h1; injection h1 with h1; subst h1; exact h2
  simp only [this]

/-! ## C30 -/

/-- C30 as stated, the exposure clause: the net exposure of the strategy moves by exactly `q`. -/
def Spec.C30 : Prop :=
  ∀ (env : Env) (w : World), Spec.ValidRun env w → ∀ (e : ℕ) (ep : Epic) (pr : Provider),
    w.epics[e]? = some ep → w.providers[ep.provider]? = some pr → pr.kind = .backtests →
    ∀ (s : ℕ) (d : Dir) (q : ℤ), s < w.strategies.length → 0 < q →
    ∀ pr', (w.step (.openTrade e (some s) (some d) q)).1.providers[ep.provider]? = some pr' →
    Spec.exposure (w.step (.openTrade e (some s) (some d) q)).1 (some s) pr'.trades =
      Spec.exposure w (some s) pr.trades + Spec.sign d * q

/-- C30, the netting itself, for every portfolio of a valid run: nothing is raised; the open opposite trades of the
strategy, most recent first, are closed by the quantities `Spec.closings`, each at the closing side of its own epic's
last tick; the new trade keeps what is left, and is registered iff that is positive. -/
theorem C30_netting {env : Env} {w : World} (hw : Spec.ValidRun env w) {e : ℕ} {ep : Epic} {pr : Provider}
    (hep : w.epics[e]? = some ep) (hpr : w.providers[ep.provider]? = some pr) (hk : pr.kind = .backtests)
    (s : Option ℕ) (hs : ∀ k, s = some k → k < w.strategies.length) (d : Dir) (q : ℤ) (hq : 0 < q) :
    let opp := Spec.openTradesOf w pr (Spec.flip d) s
    let os := opp.map (Spec.openQuantity w)
    let w' := (w.step (.openTrade e s (some d) q)).1
    (w.step (.openTrade e s (some d) q)).2 = none ∧
    (∀ (j i : ℕ), opp[j]? = some i → ∃ t ept c t', w.trades[i]? = some t ∧ w.epics[t.epic]? = some ept ∧
      (Spec.closings q os)[j]? = some c ∧ w'.trades[i]? = some t' ∧
      t'.closes = t.closes ++ [⟨Spec.exitQuote t.dir ept.lastTick, c, ept.lastTick.dt, .created⟩] ∧
      t'.openQty = t.openQty) ∧
    (∀ i, i < w.trades.length → i ∉ opp → w'.trades[i]? = w.trades[i]?) ∧
    (∃ t, w'.trades[w.trades.length]? = some t ∧ t.epic = e ∧ t.strategy = s ∧ t.dir = d ∧ t.closes = [] ∧
      t.openQty = max 0 (q - os.sum) ∧ t.openValue = Spec.entryQuote d ep.lastTick ∧ t.dt = ep.lastTick.dt) ∧
    (∃ pr', w'.providers[ep.provider]? = some pr' ∧
      pr'.trades = pr.trades ++ (if os.sum < q then [w.trades.length] else [])) := by
  have hflip : Spec.flip d = d.opposite := by cases d <;> rfl
  rw [hflip]
  obtain ⟨h1, ⟨t, h2, h2'⟩, h3, h4, h5, h6, -⟩ := openTrade_backtests hw.reachable.regInv hw.nonNeg hep hpr hk s hs d q
    hq.le
  intro opp os w'
  refine ⟨h1, ?_, h4, ?_, h6⟩
  · intro j i hji
    obtain ⟨x, epx, c, r, k1, k2, k3, k4, k5⟩ := h5 j i hji
    refine ⟨x, epx, c, _, k1, k2, k3, k5, ?_, (kept_closeFromTick x _ _).openQty⟩
    have hopen : x.closed = false := by
      have hm := List.mem_of_getElem? hji
      have := List.of_mem_filter hm
      rw [k1] at this
      simp only [decide_eq_true_eq] at this
      rw [Bool.eq_false_iff]; intro hc; exact this.2.2 ((Trade.closed_iff x).mp hc)
    unfold Trade.closeFromTick Trade.close
    simp only [C26_valued_at_exit_quote x epx.lastTick hopen]
    rw [← k4]
    simp [updateFromTick_eq]
  · refine ⟨_, h2', ?_⟩
    cases d
    · simp only [Trade.openFromTick, Except.ok.injEq] at h2
      subst h2
      exact ⟨rfl, rfl, rfl, rfl, rfl, rfl, rfl⟩
    · simp only [Trade.openFromTick, Except.ok.injEq] at h2
      subst h2
      exact ⟨rfl, rfl, rfl, rfl, rfl, rfl, rfl⟩

theorem exposure_snoc (w : World) (s : Option ℕ) (l : List ℕ) (i : ℕ)
    (h : ∀ t, w.trades[i]? = some t → t.openedQty = 0) : Spec.exposure w s (l ++ [i]) = Spec.exposure w s l := by
  unfold Spec.exposure
  rw [List.map_append, List.sum_append]
  rcases hx : w.trades[i]? with _ | t
  · simp [hx]
  · simp [hx, h t hx]

theorem opposing_pos {env : Env} {w : World} (hw : Spec.ValidRun env w) (pr : Provider) (d : Dir) (s : Option ℕ) :
    ∀ o ∈ (Spec.openTradesOf w pr d s).map (Spec.openQuantity w), 0 < o := by
  intro o ho
  obtain ⟨i, hi', rfl⟩ := List.mem_map.mp ho
  have := List.of_mem_filter hi'
  unfold Spec.openQuantity
  rcases hx : w.trades[i]? with _ | x
  · rw [hx] at this; cases this
  · rw [hx] at this
    simp only [decide_eq_true_eq] at this
    have hn := hw.nonNeg x (List.mem_of_getElem? hx)
    unfold Trade.openedQty Trade.closedQty at hn
    simp only
    have := this.2.2
    omega

/-- C30, exact change of the exposure: `q`, plus the open opposite quantity older than the trade in which the new
quantity was used up. -/
theorem C30_exposure_change {env : Env} {w : World} (hw : Spec.ValidRun env w) {e : ℕ} {ep : Epic} {pr pr' : Provider}
    (hep : w.epics[e]? = some ep) (hpr : w.providers[ep.provider]? = some pr) (hk : pr.kind = .backtests)
    (s : Option ℕ) (hs : ∀ k, s = some k → k < w.strategies.length) (d : Dir) (q : ℤ) (hq : 0 < q)
    (hpr' : (w.step (.openTrade e s (some d) q)).1.providers[ep.provider]? = some pr') :
    Spec.exposure (w.step (.openTrade e s (some d) q)).1 s pr'.trades = Spec.exposure w s pr.trades + Spec.sign d *
      (q + Spec.excess q ((Spec.openTradesOf w pr (Spec.flip d) s).map (Spec.openQuantity w))) := by
  have hflip : Spec.flip d = d.opposite := by cases d <;> rfl
  rw [hflip]
  have hi := hw.reachable.regInv
  obtain ⟨h1, ⟨t, h2, h2'⟩, h3, h4, h5, ⟨pr2, h6, h6'⟩, h7, -⟩ := openTrade_backtests hi hw.nonNeg hep hpr hk s
    hs d q hq.le
  rw [hpr'] at h6; injection h6 with h6; subst h6
  have hpos := opposing_pos hw pr d.opposite s
  have hsum := h7 pr.trades ((hi.provInc _ pr hpr).imp (fun h => h.ne)) (by
      intro i hio
      have := List.mem_of_mem_filter hio
      rwa [List.mem_reverse] at this) (hi.provLt _ pr hpr)
  rw [closings_sum _ hpos q hq] at hsum
  rw [← hsum, h6']
  split_ifs with hc
  · rfl
  · rw [List.append_nil, exposure_snoc]
    intro x hx
    rw [h2'] at hx; injection hx with hx; subst hx
    have : t.closes = [] := by
      cases d <;> (simp only [Trade.openFromTick, Except.ok.injEq] at h2; subst h2; rfl)
    unfold Trade.openedQty Trade.closedQty
    simp only [this, List.map_nil, List.sum_nil, sub_zero]
    omega

/-- C30, exactly when the exposure clause holds: at most one open opposite trade, or all of them but the oldest are
smaller together than `q`. -/
theorem C30_exposure_iff {env : Env} {w : World} (hw : Spec.ValidRun env w) {e : ℕ} {ep : Epic} {pr pr' : Provider}
    (hep : w.epics[e]? = some ep) (hpr : w.providers[ep.provider]? = some pr) (hk : pr.kind = .backtests)
    (s : Option ℕ) (hs : ∀ k, s = some k → k < w.strategies.length) (d : Dir) (q : ℤ) (hq : 0 < q)
    (hpr' : (w.step (.openTrade e s (some d) q)).1.providers[ep.provider]? = some pr') :
    (Spec.exposure (w.step (.openTrade e s (some d) q)).1 s pr'.trades = Spec.exposure w s pr.trades + Spec.sign d * q) ↔
      (Spec.openTradesOf w pr (Spec.flip d) s).length ≤ 1 ∨
      ((Spec.openTradesOf w pr (Spec.flip d) s).map (Spec.openQuantity w)).dropLast.sum < q := by
  rw [C30_exposure_change hw hep hpr hk s hs d q hq hpr']
  have hpos := opposing_pos hw pr (Spec.flip d) s
  have := excess_eq_zero _ hpos q
  rw [List.length_map] at this
  rw [← this]
  have hsg : Spec.sign d = 1 ∨ Spec.sign d = -1 := by cases d <;> simp [Spec.sign]
  rcases hsg with h | h <;> rw [h] <;> constructor <;> intro h' <;> omega

/-- C30, exposure clause, when the new quantity is not used up before the oldest open opposite trade.  Missing for the
full statement: the other portfolios, for which it is false (`C30_false`). -/
theorem C30_exposure_partial {env : Env} {w : World} (hw : Spec.ValidRun env w) {e : ℕ} {ep : Epic} {pr pr' : Provider}
    (hep : w.epics[e]? = some ep) (hpr : w.providers[ep.provider]? = some pr) (hk : pr.kind = .backtests)
    (s : Option ℕ) (hs : ∀ k, s = some k → k < w.strategies.length) (d : Dir) (q : ℤ) (hq : 0 < q)
    (hold : (Spec.openTradesOf w pr (Spec.flip d) s).length ≤ 1 ∨
      ((Spec.openTradesOf w pr (Spec.flip d) s).map (Spec.openQuantity w)).dropLast.sum < q)
    (hpr' : (w.step (.openTrade e s (some d) q)).1.providers[ep.provider]? = some pr') :
    Spec.exposure (w.step (.openTrade e s (some d) q)).1 s pr'.trades =
      Spec.exposure w s pr.trades + Spec.sign d * q :=
  (C30_exposure_iff hw hep hpr hk s hs d q hq hpr').mpr hold

/-! ## C31 -/

/-- C31: whatever the world, epic, provider class, quantity and outcome. -/
theorem C31_others_untouched (w : World) (e : ℕ) (s : Option ℕ) (d : Dir) (q : ℤ) (i : ℕ) (t : Trade)
    (ht : w.trades[i]? = some t) (h : t.dir = d ∨ t.strategy ≠ s) :
    (w.step (.openTrade e s (some d) q)).1.trades[i]? = some t := by
  simp only [World.step]
  split
  · exact ht
  · rename_i ep hep
    split_ifs
    · obtain ⟨n, hn, hnd, hns⟩ : ∃ n, Trade.openFromTick ep.lastTick e (some d) q s = .ok n ∧ n.dir = d ∧
          n.strategy = s := by
        cases d <;> exact ⟨_, rfl, rfl, rfl⟩
      rw [hn]
      show (orKeep w (w.providerOpen ep.provider n)).1.trades[i]? = some t
      rcases hp : w.providerOpen ep.provider n with err | w'
      · exact ht
      · show w'.trades[i]? = some t
        unfold World.providerOpen at hp
        rcases hpr : w.providers[ep.provider]? with _ | pr
        · rw [hpr] at hp; cases hp
        · rw [hpr] at hp
          simp only at hp
          have hlt : i < w.trades.length := getElem?_lt ht
          cases hk : pr.kind
          · rw [hk] at hp
            simp only at hp
            rcases hnl : netLoop ep.provider w n (w.openedTrades pr) with err | ⟨u, n'⟩
            · rw [hnl] at hp; cases hp
            · rw [hnl] at hp
              obtain ⟨g1, -, g3⟩ := netLoop_others _ _ _ _ _ hnl
              have hu := g3 i t ht (by rw [hnd, hns]; exact h)
              simp only [bind, Except.bind] at hp
              split_ifs at hp
              · injection hp with hp; subst hp
                show (u.trades ++ [n'])[i]? = _
                rw [List.getElem?_append_left (by omega)]; exact hu
              · injection hp with hp; subst hp
                rw [(register_eq _ _ _ _).1]
                show (u.trades ++ [n'])[i]? = _
                rw [List.getElem?_append_left (by omega)]; exact hu
          · rw [hk] at hp
            simp only at hp
            injection hp with hp; subst hp
            rw [(register_eq _ _ _ _).1]
            show (w.trades ++ [n])[i]? = _
            rw [List.getElem?_append_left hlt]; exact ht
    · exact ht

/-! ## C32 -/

/-- C32: after a backtest open at most one opposite trade of the strategy is open, none if the new trade is
registered, and it is registered iff a positive quantity is left. -/
theorem C32_one_side {env : Env} {w : World} (hw : Spec.ValidRun env w) {e : ℕ} {ep : Epic} {pr pr' : Provider}
    (hep : w.epics[e]? = some ep) (hpr : w.providers[ep.provider]? = some pr) (hk : pr.kind = .backtests)
    (s : Option ℕ) (hs : ∀ k, s = some k → k < w.strategies.length) (d : Dir) (q : ℤ) (hq : 0 < q)
    (hpr' : (w.step (.openTrade e s (some d) q)).1.providers[ep.provider]? = some pr') :
    let w' := (w.step (.openTrade e s (some d) q)).1
    let still : ℕ → Prop := fun i => i ∈ pr'.trades ∧
      ∃ t, w'.trades[i]? = some t ∧ t.dir = Spec.flip d ∧ t.strategy = s ∧ Spec.IsOpen t
    (∀ i j, still i → still j → i = j) ∧
    (w.trades.length ∈ pr'.trades → ∀ i, ¬ still i) ∧
    ∃ t, w'.trades[w.trades.length]? = some t ∧ (w.trades.length ∈ pr'.trades ↔ 0 < t.openQty) := by
  have hflip : Spec.flip d = d.opposite := by cases d <;> rfl
  rw [hflip]
  have hi := hw.reachable.regInv
  obtain ⟨h1, ⟨t, h2, h2'⟩, h3, h4, h5, ⟨pr2, h6, h6'⟩, -⟩ := openTrade_backtests hi hw.nonNeg hep hpr hk s hs d q hq.le
  rw [hpr'] at h6; injection h6 with h6; subst h6
  set opp := Spec.openTradesOf w pr d.opposite s with hopp
  set os := opp.map (Spec.openQuantity w) with hos
  have hmemo : ∀ i, i ∈ opp → ∃ x, w.trades[i]? = some x ∧ 0 < x.openedQty := by
    intro i hi'
    have := List.of_mem_filter hi'
    rcases hx : w.trades[i]? with _ | x
    · rw [hx] at this; cases this
    · rw [hx] at this
      simp only [decide_eq_true_eq] at this
      have hn := hw.nonNeg x (List.mem_of_getElem? hx)
      have h9 : x.openedQty ≠ 0 := this.2.2
      exact ⟨x, rfl, by omega⟩
  have hpos : ∀ o ∈ os, 0 < o := by
    intro o ho
    obtain ⟨i, hi', rfl⟩ := List.mem_map.mp ho
    obtain ⟨x, hx, hx'⟩ := hmemo i hi'
    unfold Spec.openQuantity
    rw [hx]; exact hx'
  have hnd : opp.Nodup := by
    apply List.Nodup.filter
    rw [List.nodup_reverse]
    exact (hi.provInc _ pr hpr).imp (fun h => h.ne)
  obtain ⟨s1, s2, -⟩ := closings_survivor os hpos q hq.le
  intro w' still
  have hreg : w.trades.length ∈ pr'.trades ↔ os.sum < q := by
    rw [h6']
    split_ifs with hc
    · simp [hc]
    · simp only [List.append_nil]
      constructor
      · intro hm; exact absurd (hi.provLt _ pr hpr _ hm) (by omega)
      · intro hx; exact absurd hx hc
  -- what is still open was partly closed
  have hstill : ∀ i, still i → ∃ (j : ℕ) (o c : ℤ), opp[j]? = some i ∧ os[j]? = some o ∧
      (Spec.closings q os)[j]? = some c ∧ o ≠ c := by
    rintro i ⟨hm, x, hx, hxd, hxs, hxo⟩
    rw [isOpen_iff] at hxo
    by_cases hin : i ∈ opp
    · obtain ⟨j, hj⟩ := List.mem_iff_getElem?.mp hin
      obtain ⟨y, epy, c, r, k1, k2, k3, k4, k5⟩ := h5 j i hj
      refine ⟨j, y.openedQty, c, hj, ?_, k3, ?_⟩
      · rw [hos, List.getElem?_map, hj]
        simp only [Option.map_some, Spec.openQuantity, k1]
        rfl
      · intro he
        have hx' : w'.trades[i]? = some x := hx
        rw [k5] at hx'; injection hx' with hx'
        apply hxo
        rw [← hx', closeFromTick_openedQty, k4]; omega
    · exfalso
      have hne : i ≠ w.trades.length := by
        rintro rfl
        have hx' : w'.trades[w.trades.length]? = some x := hx
        rw [h2'] at hx'; injection hx' with hx'
        have : x.dir = d := by
          rw [← hx']
          cases d <;> (simp only [Trade.openFromTick, Except.ok.injEq] at h2; subst h2; rfl)
        rw [this] at hxd
        cases d <;> cases hxd
      have hm' : i ∈ pr.trades := by
        rw [h6'] at hm
        rcases List.mem_append.mp hm with hm | hm
        · exact hm
        · split_ifs at hm
          · exact absurd (List.mem_singleton.mp hm) hne
          · cases hm
      have hlt := hi.provLt _ pr hpr i hm'
      have hx' : w'.trades[i]? = some x := hx
      rw [h4 i hlt hin] at hx'
      apply hin
      rw [hopp]
      unfold Spec.openTradesOf
      rw [List.mem_filter, List.mem_reverse, hx']
      refine ⟨hm', ?_⟩
      simp only [decide_eq_true_eq]
      exact ⟨hxd, hxs, hxo⟩
  refine ⟨?_, ?_, _, h2', ?_⟩
  · intro i j hsi hsj
    obtain ⟨a, oa, ca, a1, a2, a3, a4⟩ := hstill i hsi
    obtain ⟨b, ob, cb, b1, b2, b3, b4⟩ := hstill j hsj
    have := s1 a b oa ob ca cb a2 b2 a3 b3 a4 b4
    subst this
    rw [a1] at b1; injection b1
  · intro hm i hsi
    obtain ⟨a, oa, ca, a1, a2, a3, a4⟩ := hstill i hsi
    rw [s2 (hreg.mp hm), a2] at a3
    injection a3 with a3; exact a4 a3
  · rw [hreg]
    simp only
    omega

/-! ## C33 -/

/-- C33: `opened_trades` of every reachable provider: exactly its trades that are not closed, latest first, each
once. -/
theorem C33_opened_trades {env : Env} {w : World} (hw : Reachable env w) {p : ℕ} {pr : Provider}
    (hp : w.providers[p]? = some pr) :
    (∀ i, i ∈ w.openedTrades pr ↔ i ∈ pr.trades ∧ ∃ t, w.trades[i]? = some t ∧ Spec.IsOpen t) ∧
    (w.openedTrades pr).Nodup ∧ (w.openedTrades pr).Pairwise (· > ·) ∧
    (w.openedTrades pr).Sublist pr.trades.reverse := by
  have hi := hw.regInv
  refine ⟨fun i => mem_openedTrades w pr i, openedTrades_nodup hi.toBookInv hp, ?_, List.filter_sublist⟩
  apply List.Pairwise.filter
  rw [List.pairwise_reverse]
  exact hi.provInc p pr hp

/-! ## C34 -/

/-- Spec: the number of times object `i` occurs in a list of references. -/
def Spec.times (i : ℕ) (l : List ℕ) : ℕ := l.countP (· == i)

theorem times_of_increasing {l : List ℕ} (h : l.Pairwise (· < ·)) (i : ℕ) :
    Spec.times i l = if i ∈ l then 1 else 0 := by
  have hn : l.Nodup := h.imp (fun h => h.ne)
  unfold Spec.times
  rw [← List.count]
  by_cases hi : i ∈ l
  · rw [if_pos hi, List.count_eq_one_of_mem hn hi]
  · rw [if_neg hi, List.count_eq_zero_of_not_mem hi]

/-- C34: in every reachable state each trade that was opened for a positive quantity is listed once by the provider of
its epic, by no other provider, once by its strategy if it has one, and by no other strategy; lists are in order of
opening. -/
theorem C34_registered_once {env : Env} {w : World} (hw : Reachable env w) (i : ℕ) (t : Trade)
    (ht : w.trades[i]? = some t) (hq : 0 < t.openQty) :
    (∃ ep, w.epics[t.epic]? = some ep ∧ ∀ (p : ℕ) (pr : Provider), w.providers[p]? = some pr →
      Spec.times i pr.trades = if p = ep.provider then 1 else 0) ∧
    (∀ (s : ℕ) (st : Strategy), w.strategies[s]? = some st →
      Spec.times i st.trades = if t.strategy = some s then 1 else 0) ∧
    (∀ s, t.strategy = some s → s < w.strategies.length) := by
  have hi := hw.regInv
  obtain ⟨ep, hep⟩ := hi.epicOk i t ht
  obtain ⟨p0, pr0, h1, h2⟩ := hi.listed i t ht hq
  have h3 := hi.provOf i t p0 pr0 ht h1 h2
  unfold World.providerOf at h3
  rw [hep] at h3
  injection h3 with h3
  refine ⟨⟨ep, hep, ?_⟩, ?_, hi.stratOk i t ht⟩
  · intro p pr hp
    rw [times_of_increasing (hi.provInc p pr hp)]
    have : i ∈ pr.trades ↔ p = ep.provider := by
      constructor
      · intro hm
        have := hi.provOf i t p pr ht hp hm
        unfold World.providerOf at this
        rw [hep] at this; injection this with this; exact this.symm
      · intro he
        rw [he, h3, h1] at hp
        injection hp with hp; subst hp; exact h2
    simp only [this]
  · intro s st hs
    rw [times_of_increasing (hi.stratInc s st hs)]
    have : i ∈ st.trades ↔ t.strategy = some s := by
      rw [hi.stratOf i t s st ht hs]
      exact ⟨fun h => h.1, fun h => ⟨h, p0, pr0, h1, h2⟩⟩
    simp only [this]

/-- C34, order: the lists of providers and strategies are in order of opening, hence without repetition, and contain
only existing trades. -/
theorem C34_opening_order {env : Env} {w : World} (hw : Reachable env w) :
    (∀ (p : ℕ) pr, w.providers[p]? = some pr → pr.trades.Pairwise (· < ·) ∧ ∀ i ∈ pr.trades, i < w.trades.length) ∧
    (∀ (s : ℕ) st, w.strategies[s]? = some st → st.trades.Pairwise (· < ·) ∧
      ∀ i ∈ st.trades, i < w.trades.length) := by
  have hi := hw.regInv
  exact ⟨fun p pr hp => ⟨hi.provInc p pr hp, hi.provLt p pr hp⟩,
    fun s st hs => ⟨hi.stratInc s st hs, hi.stratLt s st hs⟩⟩

/-- The lists of one world are extended in the other. -/
structure Grows (w w' : World) : Prop where
  prov : ∀ (p : ℕ) pr, w.providers[p]? = some pr → ∃ pr', w'.providers[p]? = some pr' ∧ pr.trades <+: pr'.trades
  strat : ∀ (s : ℕ) st, w.strategies[s]? = some st → ∃ st', w'.strategies[s]? = some st' ∧ st.trades <+: st'.trades
  kept : KeptAll w.trades w'.trades

theorem Grows.refl (w : World) : Grows w w :=
  ⟨fun _ pr h => ⟨pr, h, List.prefix_refl _⟩, fun _ st h => ⟨st, h, List.prefix_refl _⟩, KeptAll.refl _⟩

theorem Grows.trans {a b c : World} (h : Grows a b) (g : Grows b c) : Grows a c := by
  refine ⟨fun p pr hp => ?_, fun s st hs => ?_, h.kept.trans g.kept⟩
  · obtain ⟨x, h1, h2⟩ := h.prov p pr hp
    obtain ⟨y, g1, g2⟩ := g.prov p x h1
    exact ⟨y, g1, h2.trans g2⟩
  · obtain ⟨x, h1, h2⟩ := h.strat s st hs
    obtain ⟨y, g1, g2⟩ := g.strat s x h1
    exact ⟨y, g1, h2.trans g2⟩

theorem WPrim.grows {V : Prop} {w w' : World} (h : WPrim V w w') : Grows w w' := by
  have hmap : ∀ {α : Type} (g : α → List ℕ) (l l' : List α), l'.map g = l.map g → ∀ (p : ℕ) x, l[p]? = some x →
      ∃ x', l'[p]? = some x' ∧ g x <+: g x' := by
    intro α g l l' hm p x hx
    obtain ⟨y, h1, h2⟩ := map_getElem?_eq hm.symm hx
    exact ⟨y, h1, by rw [h2]⟩
  have hmod : ∀ {α : Type} (g : α → List ℕ) (l : List α) (i : ℕ) (f : α → α), (∀ x, g x <+: g (f x)) →
      ∀ (p : ℕ) x, l[p]? = some x → ∃ x', (l.modify i f)[p]? = some x' ∧ g x <+: g x' := by
    intro α g l i f hf p x hx
    rw [List.getElem?_modify, hx]
    by_cases h : i = p
    · exact ⟨f x, by simp [h], hf x⟩
    · exact ⟨x, by simp [h], List.prefix_refl _⟩
  cases h with
  | log ev => exact ⟨(Grows.refl w).prov, (Grows.refl w).strat, KeptAll.refl _⟩
  | epics es h => exact ⟨(Grows.refl w).prov, (Grows.refl w).strat, KeptAll.refl _⟩
  | prim h =>
    rcases h.registry with hq | ⟨t, p, -, -, rfl⟩ | ⟨t, p, -, rfl⟩
    · exact ⟨fun p pr hp => hmap _ _ _ hq.prov p pr hp, fun s st hs => hmap _ _ _ hq.strat s st hs, hq.kept⟩
    · exact ⟨(Grows.refl w).prov, (Grows.refl w).strat, KeptAll.append _ _⟩
    · obtain ⟨e1, e2, e3, e4, -⟩ := register_eq ({ w with trades := w.trades ++ [t] } : World) p
        w.trades.length t.strategy
      simp only at e1 e2 e3 e4
      refine ⟨?_, ?_, by rw [e1]; exact KeptAll.append _ _⟩
      · intro q pr hq
        rw [e3]
        exact hmod _ _ _ _ (fun x => List.prefix_append _ _) q pr hq
      · intro q st hq
        rw [e4]
        rcases t.strategy with _ | s
        · exact ⟨st, hq, List.prefix_refl _⟩
        · simp only
          exact hmod _ _ _ _ (fun x => List.prefix_append _ _) q st hq

/-- C34, permanence: whatever happens later, no trade leaves a list or changes place in it, and identity, opening data
and past closes of a trade never change. -/
theorem C34_never_removed {env : Env} {w : World} (hw : Reachable env w) (l : List Cmd) :
    let w' := w.runCmds env l
    (∀ (p : ℕ) pr, w.providers[p]? = some pr → ∃ pr', w'.providers[p]? = some pr' ∧ pr.trades <+: pr'.trades) ∧
    (∀ (s : ℕ) st, w.strategies[s]? = some st → ∃ st', w'.strategies[s]? = some st' ∧ st.trades <+: st'.trades) ∧
    ∀ (i : ℕ) t, w.trades[i]? = some t → ∃ t', w'.trades[i]? = some t' ∧
      t'.epic = t.epic ∧ t'.strategy = t.strategy ∧ t'.dir = t.dir ∧ t'.openQty = t.openQty ∧
      t'.openValue = t.openValue ∧ t'.dt = t.dt ∧
      t.closes.map (fun c => (c.closeValue, c.qty, c.dt)) <+: t'.closes.map (fun c => (c.closeValue, c.qty, c.dt)) := by
  have h := WSteps.inv (V := False) (I := fun u => Grows w u) (fun a b ha hb => ha.trans hb.grows)
    (runCmds_steps (env := env) (fun v => v.elim) l w hw.epicsOk (fun v => v.elim)) (Grows.refl w)
  refine ⟨h.prov, h.strat, fun i t ht => ?_⟩
  obtain ⟨t', h1, h2⟩ := h.kept i t ht
  exact ⟨t', h1, h2.epic, h2.strategy, h2.dir, h2.openQty, h2.openValue, h2.dt, h2.closes⟩

end
end Estrade

namespace Estrade

/-! ## Concrete cases and negations -/

theorem Demo.validRun [Arith] (l : List Cmd) (h : ∀ c ∈ l, c.Valid) :
    Spec.ValidRun Demo.quiet (Demo.world.runCmds Demo.quiet l) :=
  ⟨Demo.world, Demo.world_init, fun _ _ _ _ => trivial, l, h, rfl⟩

/-- A BUY of 1 by strategy 0 on epic 1, after a tick of epic 1. -/
def Demo.oneBuy : List Cmd := [.tick 1 (Demo.tk 480 10 12), .op (.openTrade 1 (some 0) (some .buy) 1)]

theorem Demo.oneBuy_valid : ∀ c ∈ Demo.oneBuy, c.Valid := by
  intro c hc
  simp only [Demo.oneBuy, List.mem_cons, List.not_mem_nil, or_false] at hc
  rcases hc with rfl | rfl
  · trivial
  · show (0 : ℤ) ≤ 1; decide

/-- C29 fails for epics that share a provider: the tick of epic 0 revalues the trade of epic 1. -/
theorem C29_false : ¬ @Spec.C29 Arith.exact := by
  letI := Arith.exact
  intro h
  have := h Demo.quiet _ (Demo.validRun _ Demo.oneBuy_valid) 0 _ (Demo.tk 481 20 22) rfl Demo.quiet
    (fun _ _ _ _ => rfl) (by decide +kernel) 0 _ rfl
  revert this
  decide +kernel

/-- Concrete case of C29: epic 1 alone on its provider; its open trade is revalued, its closed one and that of epic 0
are not. -/
example : letI := Arith.exact
    let w0 : World := { Demo.world with
      epics := [Epic.new "E0" Zone.utc 0 (23 * hourUs) [] [] 0, Epic.new "E1" Zone.utc 0 (23 * hourUs) [] [] 1]
      providers := [Provider.new .backtests, Provider.new .custom] }
    let l : List Cmd := [.tick 0 (Demo.tk 480 10 12), .tick 1 (Demo.tk 480 10 12),
      .op (.openTrade 0 (some 0) (some .buy) 1), .op (.openTrade 1 (some 0) (some .sell) 2),
      .op (.openTrade 1 (some 0) (some .buy) 3), .op (.closeTrade 1 1 none)]
    let w := w0.runCmds Demo.quiet l
    let w' := (w.onNewTick Demo.quiet 1 (Demo.tk 481 20 23)).1
    (w.onNewTick Demo.quiet 1 (Demo.tk 481 20 23)).2 = none ∧
    w.trades.map Trade.curClose = [10, 12, 10] ∧ w'.trades.map Trade.curClose = [10, 12, 20] ∧
    w'.trades.map Trade.maxRes = [-2, -4, 24] := by decide +kernel

/-- Two BUYs of 1 by strategy 0. -/
def Demo.twoBuys : List Cmd := [.tick 1 (Demo.tk 480 10 12), .op (.openTrade 1 (some 0) (some .buy) 1),
  .op (.openTrade 1 (some 0) (some .buy) 1)]

theorem Demo.twoBuys_valid : ∀ c ∈ Demo.twoBuys, c.Valid := by
  intro c hc
  simp only [Demo.twoBuys, List.mem_cons, List.not_mem_nil, or_false] at hc
  rcases hc with rfl | rfl | rfl
  · trivial
  · show (0 : ℤ) ≤ 1; decide
  · show (0 : ℤ) ≤ 1; decide

/-- C30 fails: against two open BUYs of 1, a SELL of 1 closes both (the second `close(quantity=0)` closes all), so the
exposure moves by 2. -/
theorem C30_false : ¬ @Spec.C30 Arith.exact := by
  letI := Arith.exact
  intro h
  have := h Demo.quiet _ (Demo.validRun _ Demo.twoBuys_valid) 1 _ _ rfl rfl (by decide +kernel) 0 .sell 1
    (by decide +kernel) (by decide) _ rfl
  revert this
  decide +kernel

/-- Concrete case of C30, C31, C32: BUY 3, BUY 2 (strategy 0), BUY 5 (strategy 1), then SELL 4 by strategy 0 closes 2 of
the latest and 2 of the first; SELL 9 by strategy 0 then closes the last 1 and opens 8. -/
example : letI := Arith.exact
    let w := Demo.world.runCmds Demo.quiet [.tick 1 (Demo.tk 480 10 12), .op (.openTrade 1 (some 0) (some .buy) 3),
      .op (.openTrade 1 (some 0) (some .buy) 2), .op (.openTrade 1 (some 1) (some .buy) 5)]
    let w1 := (w.step (.openTrade 1 (some 0) (some .sell) 4)).1
    let w2 := (w1.step (.openTrade 1 (some 0) (some .sell) 9)).1
    w1.trades.map Trade.openedQty = [1, 0, 5, 0] ∧ w2.trades.map Trade.openedQty = [0, 0, 5, 0, 8] ∧
    w2.providers.map Provider.trades = [[0, 1, 2, 4]] ∧ w2.strategies.map Strategy.trades = [[0, 1, 4], [2]] ∧
    (w2.providers.map fun pr => w2.openedTrades pr) = [[4, 2]] ∧
    Spec.exposure w (some 0) [0, 1, 2] = 5 ∧ Spec.exposure w1 (some 0) [0, 1, 2] = 1 ∧
    Spec.exposure w2 (some 0) [0, 1, 2, 4] = -8 := by decide +kernel

/-- The hypotheses of the C30 and C32 theorems hold in that case. -/
example : letI := Arith.exact
    let l : List Cmd := [.tick 1 (Demo.tk 480 10 12), .op (.openTrade 1 (some 0) (some .buy) 3),
      .op (.openTrade 1 (some 0) (some .buy) 2)]
    let w := Demo.world.runCmds Demo.quiet l
    Spec.ValidRun Demo.quiet w ∧ (∃ ep pr, w.epics[1]? = some ep ∧ w.providers[ep.provider]? = some pr ∧
      pr.kind = .backtests ∧ Spec.openTradesOf w pr .buy (some 0) = [1, 0] ∧
      ((Spec.openTradesOf w pr .buy (some 0)).map (Spec.openQuantity w)).dropLast.sum < 4) := by
  letI := Arith.exact
  refine ⟨Demo.validRun _ ?_, _, _, rfl, rfl, ?_⟩
  · intro c hc
    simp only [List.mem_cons, List.not_mem_nil, or_false] at hc
    rcases hc with rfl | rfl | rfl
    · trivial
    · show (0 : ℤ) ≤ 3; decide
    · show (0 : ℤ) ≤ 2; decide
  · decide +kernel

end Estrade
