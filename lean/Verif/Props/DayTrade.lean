import Verif.Lemmas.Births
import Verif.Props.Callbacks
import Verif.Props.Results

/-!
# C92: a strategy that trades in market hours and closes at the market close holds nothing overnight
-/

set_option linter.style.haveILetI false
set_option linter.unusedSectionVars false
set_option autoImplicit false

namespace Estrade

section
variable [Arith]

/-- Spec: code that opens trades for strategy `s` only in callbacks of `s`, on the epic of the callback, and only in `on_market_open`,
in `on_every_tick_market_open` or after a look at `epic.market_open`. -/
def Spec.InHours (env : Env) (s : ℕ) : Prop :=
  ∀ s' cb e w, (env s' cb e w).All (fun o => ∀ e' d q, o = .openTrade e' (some s) d q →
    s' = s ∧ e' = e ∧ (cb = .marketOpen ∨ cb = .everyTickOpen ∨ ∃ ep, w.epics[e]? = some ep ∧ ep.marketOpen = true))

/-- Code that opens trades for strategy `s` only in callbacks of `s`, on the epic of the callback, while its market is open. -/
def HoursOnly (env : Env) (s : ℕ) : Prop :=
  ∀ s' cb e w, (env s' cb e w).All (fun o => ∀ e' d q, o = .openTrade e' (some s) d q →
    s' = s ∧ e' = e ∧ ∃ ep, w.epics[e]? = some ep ∧ ep.marketOpen = true)

/-- Spec: the main program opens no trade for strategy `s`. -/
def Spec.NoOpening (l : List Cmd) (s : ℕ) : Prop := ∀ e d q, Cmd.op (.openTrade e (some s) d q) ∉ l

/-- Spec: `on_market_close` of strategy `s` begins with `self.close_opened_trades()`. -/
def Spec.Liquidates (env : Env) (s : ℕ) : Prop := ∀ e w, ∃ k, env s .marketClose e w = .act (.closeOpened s none) k

/-- Spec: the market of an epic is open at an instant, by the clock of the epic. -/
def Spec.OpenAt (ep : Epic) (utc : ℤ) : Prop := Spec.Open ep (utc + ep.zone.off utc)

/-! ## Ticks -/

theorem updateOpenTrades_length (w : World) (p : ℕ) (k : Tick) : (w.updateOpenTrades p k).trades.length = w.trades.length := by
  unfold World.updateOpenTrades
  rcases w.providers[p]? with _ | pr
  · rfl
  · dsimp only
    rw [foldl_world_trades]
    dsimp only
    generalize w.openedTrades pr = l
    generalize w.trades = ts
    induction l generalizing ts with
    | nil => rfl
    | cons i l ih => rw [List.foldl_cons, ih]; exact List.length_modify _ _ _

theorem onNewTick_split {V : Prop} (env : Env) (w : World) (e : ℕ) (k : Tick) :
    (w.onNewTick env e k).1 = w ∨
    ∃ ep w1, w.epics[e]? = some ep ∧ (Spec.localTick ep.zone k).dt.lt ep.lastTick.dt = false ∧
      w1.epics = w.epics.set e (ep.accept (Spec.localTick ep.zone k)).1 ∧ w1.trades.length = w.trades.length ∧
      w1.strategies = w.strategies ∧ WSteps V w w1 ∧
      ((w.onNewTick env e k).1 = w1 ∧ (w.onNewTick env e k).2 ≠ none ∨
        w.onNewTick env e k = execStrategies env e ep.marketOpen (Spec.localTick ep.zone k).dt w1 (ep.strategies.map Prod.snd)) := by
  unfold World.onNewTick
  rcases hep : w.epics[e]? with _ | ep
  · left; rfl
  · simp only
    change _ ∨ ∃ ep_1 w1, some ep = some ep_1 ∧ _
    have hk : ({ k with dt := k.dt.to ep.zone } : Tick) = Spec.localTick ep.zone k := rfl
    have hk2 : k.dt.to ep.zone = (Spec.localTick ep.zone k).dt := rfl
    rw [hk2]
    have hk3 : ({ k with dt := (Spec.localTick ep.zone k).dt } : Tick) = Spec.localTick ep.zone k := rfl
    simp only [hk3]
    rcases hr : (Spec.localTick ep.zone k).dt.lt ep.lastTick.dt with _ | _
    · right
      simp only [Bool.false_eq_true, if_false]
      have h2 : WSteps V w { w with
          epics := w.epics.set e (ep.accept (Spec.localTick ep.zone k)).1
          log := w.log ++ [.accepted e (Spec.localTick ep.zone k)] } :=
        .head (.epics (w.epics.set e (ep.accept (Spec.localTick ep.zone k)).1) (map_provider_set _ _ _ _ hep rfl)) (.single (.log _))
      rcases ha : (ep.accept (Spec.localTick ep.zone k)).2 with _ | err
      · obtain ⟨r1, r2, r3, r4⟩ := updateOpenTrades_rest ({ w with
          epics := w.epics.set e (ep.accept (Spec.localTick ep.zone k)).1
          log := w.log ++ [.accepted e (Spec.localTick ep.zone k)] } : World) ep.provider (Spec.localTick ep.zone k)
        exact ⟨ep, _, rfl, hr, r1, updateOpenTrades_length _ _ _, r3,
          h2.trans (updateOpenTrades_steps _ ep.provider (Spec.localTick ep.zone k)).lift, .inr rfl⟩
      · exact ⟨ep, { w with
          epics := w.epics.set e (ep.accept (Spec.localTick ep.zone k)).1
          log := w.log ++ [.accepted e (Spec.localTick ep.zone k)] }, rfl, hr, rfl, rfl, rfl, h2, .inl ⟨rfl, by simp⟩⟩
    · left; simp

/-- Zone, calendar and strategies of epics. -/
structure SameHours (ep ep' : Epic) : Prop where
  zone : ep'.zone = ep.zone
  opening : ep'.openTime = ep.openTime
  closing : ep'.closeTime = ep.closeTime
  days : ep'.tradeDays = ep.tradeDays
  off : ep'.holidays = ep.holidays
  regs : ∀ s ∈ ep.strategies.map Prod.snd, s ∈ ep'.strategies.map Prod.snd

theorem SameHours.openAt {ep ep' : Epic} (h : SameHours ep ep') {u : ℤ} (ho : Spec.OpenAt ep u) : Spec.OpenAt ep' u := by
  unfold Spec.OpenAt Spec.Open at ho ⊢
  rw [h.zone, h.opening, h.closing, h.days, h.off]
  exact ho

/-- Commands other than ticks keep clocks and market states. -/
theorem exec_hours (env : Env) (w : World) (c : Cmd) (e : ℕ) (ep : Epic) (h : w.epics[e]? = some ep) :
    ∃ ep', (w.exec env c).1.epics[e]? = some ep' ∧ SameHours ep ep' := by
  obtain ⟨ep', g1, g2, g3⟩ := exec_regs_mono env w c e ep h
  refine ⟨ep', g1, ?_⟩
  by_cases hc : ∃ e t, c = .tick e t
  · obtain ⟨e0, k, rfl⟩ := hc
    rcases tick_effect env w e0 k with ⟨g, -⟩ | ⟨x, x1, -, g, -⟩
    · rw [g, h] at g1; injection g1 with g1; subst g1; exact ⟨rfl, rfl, rfl, rfl, rfl, g3⟩
    · rw [g, List.getElem?_set] at g1
      by_cases he : e0 = e
      · subst he
        rw [if_pos rfl, if_pos (getElem?_lt h)] at g1
        rw [h] at x1; injection x1 with x1; subst x1
        injection g1 with g1; subst g1
        exact ⟨rfl, rfl, rfl, rfl, rfl, g3⟩
      · rw [if_neg he, h] at g1; injection g1 with g1; subst g1; exact ⟨rfl, rfl, rfl, rfl, rfl, g3⟩
  · push Not at hc
    obtain ⟨y, y1, y2⟩ := (exec_other env w c hc).2.2 e ep h
    rw [g1] at y1; injection y1 with y1; subst y1
    exact ⟨y2.zone, y2.opening, y2.closing, y2.days, y2.off, g3⟩

/-! ## Openings -/

/-- Trades of `s` belong to epics of `s` and were opened in their hours. -/
structure HoursInv (s : ℕ) (w : World) : Prop where
  ok : EpicsOk w
  clock : ∀ (e : ℕ) ep, w.epics[e]? = some ep → ep.marketOpen = true → Spec.OpenAt ep ep.lastTick.dt.utc
  mine : ∀ (i : ℕ) t, w.trades[i]? = some t → t.strategy = some s →
    ∃ ep, w.epics[t.epic]? = some ep ∧ s ∈ ep.strategies.map Prod.snd ∧ Spec.OpenAt ep t.dt.utc

/-- What the callbacks of a tick on `e` may open for `s`. -/
def AllowedAt (s e : ℕ) (E : List Epic) (L : List ℕ) (e' : ℕ) (so : Option ℕ) : Prop :=
  so = some s → e' = e ∧ s ∈ L ∧ ∃ ep, E[e]? = some ep ∧ ep.marketOpen = true

theorem HoursOnly.callback {env : Env} {s : ℕ} (h : HoursOnly env s) {V : Prop} (hv : V → env.Valid) (E : List Epic) (L : List ℕ)
    (e s' : ℕ) (hs : s' ∈ L) : Callback V (AllowedAt s e E L) env E s' e := by
  intro cb w hw
  have h1 := h s' cb e w
  have h2 : V → (env s' cb e w).All Op.Valid := fun v => hv v s' cb e w
  revert h1 h2
  generalize env s' cb e w = p
  intro h1 h2
  induction p with
  | done => trivial
  | raise _ => trivial
  | act o k ih =>
    refine ⟨⟨fun v => (h2 v).1, ?_⟩, fun u x => ih u x (h1.2 u x) (fun v => (h2 v).2 u x)⟩
    rintro e' so d q rfl rfl
    obtain ⟨rfl, rfl, ep, g1, g2⟩ := h1.1 e' d q rfl
    exact ⟨rfl, hs, ep, by rw [← hw]; exact g1, g2⟩

theorem HoursInv.exec {env : Env} {s : ℕ} (henv : HoursOnly env s) {w : World} (h : HoursInv s w) (c : Cmd)
    (hc : ∀ e d q, c ≠ .op (.openTrade e (some s) d q)) : HoursInv s (w.exec env c).1 := by
  have hst : WSteps False w (w.exec env c).1 := exec_steps (fun v => v.elim) w h.ok c (fun v => v.elim)
  have hold : ∀ (i : ℕ) t, i < w.trades.length → (w.exec env c).1.trades[i]? = some t → t.strategy = some s →
      ∃ ep, (w.exec env c).1.epics[t.epic]? = some ep ∧ s ∈ ep.strategies.map Prod.snd ∧ Spec.OpenAt ep t.dt.utc := by
    intro i t hi ht hs
    obtain ⟨u, hu, hk⟩ := hst.kept i _ (List.getElem?_eq_getElem hi)
    rw [ht] at hu; injection hu with hu; subst hu
    rw [hk.strategy] at hs
    obtain ⟨ep, g1, g2, g3⟩ := h.mine i _ (List.getElem?_eq_getElem hi) hs
    obtain ⟨ep', g4, g5⟩ := exec_hours env w c _ ep g1
    rw [hk.epic, hk.dt]
    exact ⟨ep', g4, g5.regs s g2, g5.openAt g3⟩
  have hnew : (∀ (i : ℕ) t, w.trades.length ≤ i → (w.exec env c).1.trades[i]? = some t → t.strategy = some s →
      ∃ ep, (w.exec env c).1.epics[t.epic]? = some ep ∧ s ∈ ep.strategies.map Prod.snd ∧ Spec.OpenAt ep t.dt.utc) →
      ∀ (i : ℕ) t, (w.exec env c).1.trades[i]? = some t → t.strategy = some s →
      ∃ ep, (w.exec env c).1.epics[t.epic]? = some ep ∧ s ∈ ep.strategies.map Prod.snd ∧ Spec.OpenAt ep t.dt.utc := by
    intro hn i t ht hs
    by_cases hi : i < w.trades.length
    · exact hold i t hi ht hs
    · exact hn i t (by omega) ht hs
  refine ⟨hst.epicsOk h.ok, ?_, hnew ?_⟩
  · intro e ep hep ho
    by_cases hc : ∃ e t, c = .tick e t
    · obtain ⟨e0, k, rfl⟩ := hc
      rcases tick_effect env w e0 k with ⟨g, -⟩ | ⟨x, x1, -, g, -⟩
      · rw [g] at hep; exact h.clock e ep hep ho
      · rw [g, List.getElem?_set] at hep
        by_cases he : e0 = e
        · subst he
          rw [if_pos rfl, if_pos (getElem?_lt x1)] at hep
          injection hep with hep; subst hep
          exact (accept_open x _).mp ho
        · rw [if_neg he] at hep; exact h.clock e ep hep ho
    · push Not at hc
      have hlt : e < w.epics.length := by rw [← (exec_other env w c hc).2.1]; exact getElem?_lt hep
      obtain ⟨y, y1, y2⟩ := (exec_other env w c hc).2.2 e _ (List.getElem?_eq_getElem hlt)
      rw [hep] at y1; injection y1 with y1; subst y1
      have := h.clock e _ (List.getElem?_eq_getElem hlt) (by rw [← y2.flag]; exact ho)
      rw [y2.last]
      unfold Spec.OpenAt Spec.Open at this ⊢
      rw [y2.zone, y2.opening, y2.closing, y2.days, y2.off]
      exact this
  · intro i t hi ht hs
    by_cases hc' : ∃ e t, c = .tick e t
    · obtain ⟨e, k, rfl⟩ := hc'
      change (w.onNewTick env e k).1.trades[i]? = some t at ht
      change ∃ ep, (w.onNewTick env e k).1.epics[t.epic]? = some ep ∧ _
      rcases onNewTick_split (V := False) env w e k with g | ⟨ep, w1, a1, a2, a3, a4, a5, a6, a7 | a7⟩
      · rw [g] at ht; exact absurd (getElem?_lt ht) (by omega)
      · rw [a7.1] at ht; exact absurd (getElem?_lt ht) (by omega)
      · rw [a7] at ht ⊢
        have hg := execStrategies_grows (V := False) (R := AllowedAt s e w1.epics (ep.strategies.map Prod.snd)) (env := env) (e := e)
          (b := ep.marketOpen) (dt := (Spec.localTick ep.zone k).dt) (ep.strategies.map Prod.snd) (w := w1) (a6.epicsOk h.ok)
          (fun s' hs' => henv.callback (fun v => v.elim) _ _ e s' hs')
        obtain ⟨b1, x, b2, b3⟩ := hg.born i t (by omega) ht
        obtain ⟨c1, c2, y, c3, c4⟩ := b1 hs
        rw [hg.epics]
        rw [c1] at b2 ⊢
        rw [b2] at c3; injection c3 with c3; subst c3
        refine ⟨x, b2, ?_, ?_⟩
        · rw [a3, List.getElem?_set, if_pos rfl, if_pos (getElem?_lt a1)] at b2
          injection b2 with b2; subst b2
          exact c2
        · rw [a3, List.getElem?_set, if_pos rfl, if_pos (getElem?_lt a1)] at b2
          injection b2 with b2; subst b2
          rw [b3]
          exact (accept_open ep _).mp c4
    · push Not at hc'
      by_cases ho : ∃ o, c = .op o
      · obtain ⟨o, rfl⟩ := ho
        obtain ⟨d, q, ep, g1, -⟩ := step_born w o i t hi ht
        rw [hs] at g1
        exact absurd (by rw [g1]) (hc t.epic d q)
      · rw [(exec_registration env w c hc' ho).1] at ht
        exact absurd (getElem?_lt ht) (by omega)

theorem HoursInv.init {s : ℕ} {w : World} (h : w.Init) : HoursInv s w := by
  refine ⟨Init.epicsOk h, fun e ep hep ho => ?_, fun i t ht => ?_⟩
  · obtain ⟨ref, z, o, c, td, hd, p, hp, rfl⟩ := h.epics ep (List.mem_of_getElem? hep)
    cases ho
  · rw [h.trades] at ht; simp at ht

theorem HoursInv.run {env : Env} {s : ℕ} (henv : HoursOnly env s) (l : List Cmd) : ∀ {w : World}, HoursInv s w → Spec.NoOpening l s →
    HoursInv s (w.runCmds env l) := by
  induction l with
  | nil => intro w h _; exact h
  | cons c l ih =>
    intro w h hl
    exact ih (h.exec henv c (fun e d q hc => hl e d q (by rw [hc]; simp))) (fun e d q hm => hl e d q (List.mem_cons_of_mem _ hm))

/-! ## Callbacks that are called in open markets only -/

/-- User code whose callbacks for open markets are only defined there. -/
def gate (env : Env) : Env := fun s cb e w =>
  if (cb = .marketOpen ∨ cb = .everyTickOpen) ∧ w.marketOpen e = false then .done else env s cb e w

theorem gate_call (env : Env) (w : World) (s : ℕ) (cb : Cb) (e : ℕ) (h : (cb = .marketOpen ∨ cb = .everyTickOpen) → w.marketOpen e = true) :
    w.call (gate env) s cb e = w.call env s cb e := by
  unfold World.call gate
  dsimp only
  rw [if_neg]
  rintro ⟨h1, h2⟩
  have h3 : ({ w with log := w.log ++ [.notify s e cb] } : World).marketOpen e = true := h h1
  rw [h2] at h3
  cases h3

theorem gate_callIf (env : Env) (w : World) (c : Bool) (s : ℕ) (cb : Cb) (e : ℕ)
    (h : c = true → (cb = .marketOpen ∨ cb = .everyTickOpen) → w.marketOpen e = true) :
    w.callIf (gate env) c s cb e = w.callIf env c s cb e := by
  unfold World.callIf
  rcases c with _ | _
  · rfl
  · exact gate_call env w s cb e (h rfl)

theorem gate_notifyAll (env : Env) (w : World) (e s : ℕ) (before : Bool) : w.notifyAll (gate env) e s before = w.notifyAll env e s before := by
  unfold World.notifyAll
  rw [gate_callIf env w _ s .marketClose e (by rintro - (h | h) <;> cases h)]
  congr 1
  funext w1
  rw [gate_callIf env w1 _ s .marketOpen e (fun h _ => (Bool.and_eq_true_iff.mp h).2)]
  congr 1
  funext w2
  rw [gate_callIf env w2 _ s .everyTickOpen e (fun h _ => h)]
  rfl

theorem gate_execStrategies (env : Env) (e : ℕ) (before : Bool) (dt : DT) (l : List ℕ) : ∀ w : World,
    execStrategies (gate env) e before dt w l = execStrategies env e before dt w l := by
  induction l with
  | nil => intro w; rfl
  | cons s l ih =>
    intro w
    unfold execStrategies World.execStrategy
    simp only [gate_notifyAll, ih]

theorem gate_onNewTick (env : Env) (w : World) (e : ℕ) (k : Tick) : w.onNewTick (gate env) e k = w.onNewTick env e k := by
  unfold World.onNewTick
  simp only [gate_execStrategies]

theorem gate_run (env : Env) (w : World) (l : List Cmd) : w.runCmds (gate env) l = w.runCmds env l := by
  unfold World.runCmds
  congr 1
  funext w c
  cases c with
  | tick e k => exact congrArg Prod.fst (gate_onNewTick env w e k)
  | _ => rfl

theorem gate_all {P : Op → Prop} {env : Env} {s : ℕ} {cb : Cb} {e : ℕ} {w : World} (h : (env s cb e w).All P) : (gate env s cb e w).All P := by
  unfold gate
  split_ifs
  · trivial
  · exact h

theorem Spec.InHours.gate {env : Env} {s : ℕ} (h : Spec.InHours env s) : HoursOnly (gate env) s := by
  intro s' cb e w
  unfold Estrade.gate
  split_ifs with hc
  · trivial
  · have h1 := h s' cb e w
    revert h1
    generalize env s' cb e w = p
    intro h1
    induction p with
    | done => trivial
    | raise _ => trivial
    | act o k ih =>
      refine ⟨fun e' d q ho => ?_, fun u x => ih u x (h1.2 u x)⟩
      obtain ⟨g1, g2, g3⟩ := h1.1 e' d q ho
      refine ⟨g1, g2, ?_⟩
      have g4 : w.marketOpen e = true → ∃ ep, w.epics[e]? = some ep ∧ ep.marketOpen = true := by
        intro hm
        unfold World.marketOpen at hm
        rcases hep : w.epics[e]? with _ | ep
        · rw [hep] at hm; cases hm
        · rw [hep] at hm; exact ⟨ep, rfl, hm⟩
      rcases g3 with g3 | g3 | g3
      · exact g4 (by by_contra hm; exact hc ⟨.inl g3, by simpa using hm⟩)
      · exact g4 (by by_contra hm; exact hc ⟨.inr g3, by simpa using hm⟩)
      · exact g3

/-- C92: if trades of a strategy are opened only in its callbacks for the epic of the callback while its market is open, then each of
its trades belongs to an epic the strategy is registered with and was opened in the trading hours of that epic. -/
theorem C92_in_session (env : Env) (w : World) (hw : w.Init) (s : ℕ) (henv : Spec.InHours env s) (l : List Cmd)
    (hl : Spec.NoOpening l s) (i : ℕ) (t : Trade) (ht : (w.runCmds env l).trades[i]? = some t) (hs : t.strategy = some s) :
    ∃ ep, (w.runCmds env l).epics[t.epic]? = some ep ∧ s ∈ ep.strategies.map Prod.snd ∧ Spec.OpenAt ep t.dt.utc := by
  rw [← gate_run] at ht ⊢
  exact (HoursInv.run henv.gate l (HoursInv.init hw) hl).mine i t ht hs

/-! ## Liquidation -/

/-- All trades of `s` are closed. -/
def AllShut (s : ℕ) (w : World) : Prop := ∀ (i : ℕ) t, w.trades[i]? = some t → t.strategy = some s → t.closed = true

theorem AllShut.grows {s : ℕ} {R : ℕ → Option ℕ → Prop} {w w' : World} (h : AllShut s w) (hs : Sound w) (hg : GrowsBy True R w w')
    (hR : ∀ e, ¬ R e (some s)) : AllShut s w' := by
  intro i t ht hts
  by_cases hi : i < w.trades.length
  · obtain ⟨u, hu, hk⟩ := hg.steps.kept i _ (List.getElem?_eq_getElem hi)
    rw [ht] at hu; injection hu with hu; subst hu
    obtain ⟨x, x1, x2⟩ := hg.steps.stayShut hs i _ (List.getElem?_eq_getElem hi)
      (h i _ (List.getElem?_eq_getElem hi) (by rw [← hk.strategy]; exact hts))
    rw [ht] at x1; injection x1 with x1; subst x1; exact x2
  · obtain ⟨h1, -⟩ := hg.born i t (by omega) ht
    rw [hts] at h1
    exact absurd h1 (hR _)

theorem closeOpened_allShut {w : World} (h : Sound w) {s : ℕ} {st : Strategy} (hs : w.strategies[s]? = some st) :
    AllShut s (w.step (.closeOpened s none)).1 := by
  have hi := h.reg
  have hnd : st.trades.reverse.Nodup := by
    rw [List.nodup_reverse]; exact (hi.stratInc s st hs).imp (fun h => h.ne)
  obtain ⟨w', h1, h2, h3, h3', h4, h5⟩ := closeOpenedLoop_none st.trades.reverse w hnd (fun i him => by
    have hlt := hi.stratLt s st hs i (List.mem_reverse.mp him)
    obtain ⟨ep, hep⟩ := hi.epicOk i _ (List.getElem?_eq_getElem hlt)
    exact ⟨_, ep, List.getElem?_eq_getElem hlt, hep⟩)
  have hstep : w.step (.closeOpened s none) = (w', none) := by
    simp only [World.step, hs, h1]; rfl
  rw [hstep]
  intro i t ht hts
  change w'.trades[i]? = some t at ht
  by_cases him : i ∈ st.trades
  · obtain ⟨x, ep, k1, k2, k3⟩ := h5 i (by simpa using him)
    rw [ht] at k3; injection k3 with k3
    rw [k3]
    split_ifs with hc
    · exact hc
    · rw [Trade.closed_iff, closeFromTick_openedQty, Trade.closeQty_none]; omega
  · have ht' := (h4 i (by simpa using him)).symm.trans ht
    have hnot : ¬ 0 < t.openQty := by
      intro hq
      obtain ⟨p, pr, g1, g2⟩ := hi.listed i t ht' hq
      exact him ((hi.stratOf i t s st ht' hs).mpr ⟨hts, p, pr, g1, g2⟩)
    have q1 := h.nonNeg t (List.mem_of_getElem? ht')
    have q2 : 0 ≤ t.closedQty := by
      unfold Trade.closedQty
      apply List.sum_nonneg
      intro x hx
      obtain ⟨c, hc, rfl⟩ := List.mem_map.mp hx
      exact h.closes t (List.mem_of_getElem? ht') c hc
    rw [Trade.closed_iff]
    unfold Trade.openedQty at q1 ⊢
    omega

theorem Callback.tail {V : Prop} {R : ℕ → Option ℕ → Prop} {env : Env} {E : List Epic} {s' e : ℕ} (h : Callback V R env E s' e) {cb : Cb} {w : World}
    (hw : w.epics = E) {o : Op} {k : World → Option PyErr → Prog} (hk : env s' cb e w = .act o k) (u : World) (x : Option PyErr) :
    (k u x).All (fun o => (V → o.Valid) ∧ ∀ e s d q, o = .openTrade e s d q → R e s) := by
  have := h cb w hw
  rw [hk] at this
  exact this.2 u x

/-- The turn of `s` when the market has closed. -/
theorem turn_allShut {env : Env} {s e : ℕ} (hliq : Spec.Liquidates env s) {R : ℕ → Option ℕ → Prop} (hR : ∀ e, ¬ R e (some s)) {dt : DT} {w : World}
    (h : Sound w) (hf : StratP w s Free) (hcb : Callback True R env w.epics s e) (hm : w.marketOpen e = false) :
    AllShut s (w.execStrategy env e s true dt).1 := by
  obtain ⟨st, h1, h2⟩ := hf
  unfold World.execStrategy
  rw [h1]
  dsimp only
  rw [if_pos ((isActive_iff st dt).mpr (h2.active dt))]
  have g := set_grows (V := True) (R := R) dt h1
  revert g
  generalize hw1 : ({ w with strategies := w.strategies.set s (st.isActive dt).2 } : World) = w1
  intro g
  have hs1 : Sound w1 := h.wsteps g.steps
  have hst1 : w1.strategies[s]? = some (st.isActive dt).2 := by
    rw [← hw1]
    show (w.strategies.set s _)[s]? = _
    rw [List.getElem?_set, if_pos rfl, if_pos (getElem?_lt h1)]
  have hcb1 : Callback True R env w1.epics s e := by rw [g.epics]; exact hcb
  have hm1 : w1.marketOpen e = false := by rw [marketOpen_congr g.epics]; exact hm
  -- the closing callback
  have key : AllShut s (w1.callIf env (true && !w1.marketOpen e) s .marketClose e).1 := by
    rw [hm1]
    show AllShut s (w1.call env s .marketClose e).1
    unfold World.call
    dsimp only
    obtain ⟨k, hk⟩ := hliq e { w1 with log := w1.log ++ [.notify s e .marketClose] }
    rw [hk]
    have gn := note_grows (V := True) (R := R) w1 (.notify s e .marketClose)
    have hsn := hs1.wsteps gn.steps
    have hshut := closeOpened_allShut (w := { w1 with log := w1.log ++ [.notify s e .marketClose] }) hsn (s := s) hst1
    have gs := step_grows (V := True) (R := R) (w := { w1 with log := w1.log ++ [.notify s e .marketClose] }) hsn.epics
      (o := .closeOpened s none) (fun _ n hn => by cases hn) (fun _ _ _ _ hc => by cases hc)
    exact hshut.grows (hsn.wsteps gs.steps) (prog_grows _ _ (gs.steps.epicsOk hsn.epics) (hcb1.tail (w := { w1 with log := w1.log ++ [.notify s e .marketClose] }) rfl hk _ _)) hR
  unfold World.notifyAll
  have hthen : ∀ (r : World × Option PyErr) (f : World → World × Option PyErr), GrowsBy True R w1 r.1 → AllShut s r.1 →
      (∀ u, Sound u → Callback True R env u.epics s e → AllShut s u → AllShut s (f u).1) → AllShut s (andThen r f).1 := by
    intro r f hr ha hf
    rcases andThen_cases r f with ⟨-, h⟩ | ⟨-, h⟩
    · rw [h]
      exact hf _ (hs1.wsteps hr.steps) (by rw [hr.epics]; exact hcb1) ha
    · rw [h]; exact ha
  have hif : ∀ (u : World) (c : Bool) (cb : Cb), Sound u → Callback True R env u.epics s e → AllShut s u → AllShut s (u.callIf env c s cb e).1 :=
    fun u c cb hu hc ha => ha.grows hu (callIf_grows hu.epics hc c cb) hR
  refine hthen _ _ (callIf_grows hs1.epics hcb1 _ _) key (fun u hu hc ha => ?_)
  refine AllShut.grows (R := R) (w := u) ha hu ?_ hR
  refine andThen_grows (callIf_grows hu.epics hc _ _) (fun v hv => ?_)
  have hv' := hu.wsteps hv.steps
  have hc : Callback True R env v.epics s e := by rw [hv.epics]; exact hc
  refine andThen_grows (callIf_grows hv'.epics hc _ _) (fun x hx => ?_)
  exact call_grows (hx.steps.epicsOk hv'.epics) (by rw [hx.epics]; exact hc) _

theorem exec_allShut {env : Env} {s e : ℕ} (hliq : Spec.Liquidates env s) (hu : Spec.Untouched env s) {R : ℕ → Option ℕ → Prop}
    (hR : ∀ e, ¬ R e (some s)) {dt : DT} (l : List ℕ) : ∀ {w : World}, Sound w → StratP w s Free → (∀ s' ∈ l, Callback True R env w.epics s' e) →
    s ∈ l → w.marketOpen e = false → (execStrategies env e true dt w l).2 = none → AllShut s (execStrategies env e true dt w l).1 := by
  induction l with
  | nil => intro w _ _ _ h; cases h
  | cons s' rest ih =>
    intro w h hf hcb hm ho hn
    have g := execStrategy_grows (V := True) (R := R) h.epics (hcb s' (by simp)) true dt
    have hs1 := h.wsteps g.steps
    have hcb1 : ∀ x ∈ rest, Callback True R env (w.execStrategy env e s' true dt).1.epics x e := by
      intro x hx; rw [g.epics]; exact hcb x (by simp [hx])
    have hf1 : StratP (w.execStrategy env e s' true dt).1 s Free :=
      execStrategy_keeps (hu.keeps free_switches) (fun st hst => hst.isActive dt) w hf e s' true
    unfold execStrategies at hn ⊢
    rcases andThen_cases (w.execStrategy env e s' true dt) (fun w => execStrategies env e true dt w rest) with ⟨-, hh⟩ | ⟨hne, hh⟩
    · rw [hh] at hn ⊢
      by_cases hs : s' = s
      · subst hs
        exact (turn_allShut hliq hR h hf (hcb s' (by simp)) ho).grows hs1 (execStrategies_grows rest hs1.epics hcb1) hR
      · refine ih hs1 hf1 hcb1 ?_ (by rw [marketOpen_congr g.epics]; exact ho) hn
        rcases List.mem_cons.mp hm with hm | hm
        · exact absurd hm.symm hs
        · exact hm
    · rw [hh] at hn; exact absurd hn hne

/-- No open trades of `s` on epics whose market is closed. -/
structure FlatInv (s : ℕ) (w : World) : Prop where
  sound : Sound w
  free : StratP w s Free
  hours : HoursInv s w
  flat : ∀ (i : ℕ) t, w.trades[i]? = some t → t.strategy = some s → ∀ ep, w.epics[t.epic]? = some ep → ep.marketOpen = false → t.closed = true

theorem FlatInv.exec {env : Env} {s : ℕ} (hv : env.Valid) (hu : Spec.Untouched env s) (henv : HoursOnly env s) (hliq : Spec.Liquidates env s)
    {w : World} (h : FlatInv s w) (c : Cmd) (hcv : c.Valid) (hcu : (∀ b, c ≠ .op (.stop s b)) ∧ ∀ d, c ≠ .op (.pause s d))
    (hc : ∀ e d q, c ≠ .op (.openTrade e (some s) d q))
    (hn : ∀ e k, c = .tick e k → ∀ ep, w.epics[e]? = some ep → (Spec.localTick ep.zone k).dt.lt ep.lastTick.dt = false →
      (w.onNewTick env e k).2 = none) : FlatInv s (w.exec env c).1 := by
  have hst : WSteps True w (w.exec env c).1 := exec_steps (fun _ => hv) w h.sound.epics c (fun _ => hcv)
  have hk := hu.keeps (P := Free) free_switches
  -- trades that were closed stay so
  have hold : ∀ (i : ℕ) t, i < w.trades.length → (w.exec env c).1.trades[i]? = some t → t.strategy = some s →
      (∀ ep, w.epics[t.epic]? = some ep → ep.marketOpen = false) → t.closed = true := by
    intro i t hi ht hs hep
    obtain ⟨u, hu', hk'⟩ := hst.kept i _ (List.getElem?_eq_getElem hi)
    rw [ht] at hu'; injection hu' with hu'; subst hu'
    rw [hk'.strategy] at hs
    obtain ⟨ep, e1, -⟩ := h.hours.mine i _ (List.getElem?_eq_getElem hi) hs
    have hcl := h.flat i _ (List.getElem?_eq_getElem hi) hs ep e1 (hep ep (by rw [hk'.epic]; exact e1))
    obtain ⟨x, x1, x2⟩ := hst.stayShut h.sound i _ (List.getElem?_eq_getElem hi) hcl
    rw [ht] at x1; injection x1 with x1; subst x1; exact x2
  refine ⟨h.sound.wsteps hst, ?_, h.hours.exec henv c hc, ?_⟩
  · by_cases hc' : ∃ e t, c = .tick e t
    · obtain ⟨e0, k, rfl⟩ := hc'
      exact tick_keeps hk (fun _ _ st hst => hst.isActive _) h.free
    · push Not at hc'
      exact exec_nontick_keeps env w c hc' hcu free_switches h.free
  · intro i t ht hs ep hep ho
    by_cases hc' : ∃ e t, c = .tick e t
    · obtain ⟨e, k, rfl⟩ := hc'
      have hn' := hn e k rfl
      have hold' := hold i t
      clear hold hn
      change (w.onNewTick env e k).1.trades[i]? = some t at ht
      change (w.onNewTick env e k).1.epics[t.epic]? = some ep at hep
      change _ → (w.onNewTick env e k).1.trades[i]? = some t → _ at hold'
      rcases onNewTick_split (V := True) env w e k with g | ⟨x, w1, a1, a2, a3, a4, a5, a6, a7 | a7⟩
      · rw [g] at ht hep; exact h.flat i t ht hs ep hep ho
      · exact absurd (hn' x a1 a2) a7.2
      · have hok := hn' x a1 a2
        have hcb : ∀ s' ∈ x.strategies.map Prod.snd, Callback True (AllowedAt s e w1.epics (x.strategies.map Prod.snd)) env w1.epics s' e :=
          fun s' hs' => henv.callback (fun _ => hv) _ _ e s' hs'
        have hs1 := h.sound.wsteps a6
        have hg := execStrategies_grows (V := True) (env := env) (e := e) (b := x.marketOpen) (dt := (Spec.localTick x.zone k).dt)
          (x.strategies.map Prod.snd) (w := w1) hs1.epics hcb
        rw [← a7] at hg
        rw [hg.epics] at hep
        by_cases hi : i < w.trades.length
        · by_cases he : t.epic = e
          · rcases hb : x.marketOpen with _ | _
            · refine hold' hi ht hs (fun y hy => ?_)
              rw [he, a1] at hy; injection hy with hy; rw [← hy]; exact hb
            · rw [hb] at a7
              rw [a7] at ht hok
              rw [he] at hep
              have hno : ∀ e', ¬ AllowedAt s e w1.epics (x.strategies.map Prod.snd) e' (some s) := by
                intro e' hA
                obtain ⟨-, -, y, y1, y2⟩ := hA rfl
                rw [hep] at y1; injection y1 with y1; subst y1
                rw [ho] at y2; cases y2
              refine exec_allShut hliq hu hno _ hs1 (by unfold StratP; rw [a5]; exact h.free) hcb ?_ ?_ hok i t ht hs
              · obtain ⟨u, hu', hk'⟩ := hst.kept i _ (List.getElem?_eq_getElem hi)
                have ht' : (w.exec env (.tick e k)).1.trades[i]? = some t := by
                  change (w.onNewTick env e k).1.trades[i]? = some t
                  rw [a7]; exact ht
                rw [ht'] at hu'; injection hu' with hu'; subst hu'
                obtain ⟨y, y1, y2, -⟩ := h.hours.mine i _ (List.getElem?_eq_getElem hi) (by rw [← hk'.strategy]; exact hs)
                rw [← hk'.epic, he, a1] at y1; injection y1 with y1; subst y1
                exact y2
              · unfold World.marketOpen
                rw [hep]; exact ho
          · refine hold' hi ht hs (fun y hy => ?_)
            rw [a3, List.getElem?_set, if_neg (Ne.symm he), hy] at hep
            injection hep with hep; rw [hep]; exact ho
        · obtain ⟨b1, -⟩ := hg.born i t (by omega) ht
          obtain ⟨c1, -, y, c3, c4⟩ := b1 hs
          rw [← c1, hep] at c3; injection c3 with c3; subst c3
          rw [ho] at c4; cases c4
    · push Not at hc'
      by_cases hi : i < w.trades.length
      · refine hold i t hi ht hs (fun y hy => ?_)
        obtain ⟨z, z1, z2⟩ := (exec_other env w c hc').2.2 _ y hy
        rw [hep] at z1; injection z1 with z1; subst z1
        rw [← z2.flag]; exact ho
      · by_cases hop : ∃ o, c = .op o
        · obtain ⟨o, rfl⟩ := hop
          obtain ⟨d, q, ep, g1, -⟩ := step_born w o i t (by omega) ht
          rw [hs] at g1
          exact absurd (by rw [g1]) (hc t.epic d q)
        · rw [(exec_registration env w c hc' hop).1] at ht
          exact absurd (getElem?_lt ht) hi

/-- C92: if moreover no quantities are negative, nobody stops or pauses the strategy, its `on_market_close` begins by closing all its open
trades, and no tick raises an exception, then at every moment between commands the strategy has no open trade on an epic whose market is
closed. -/
theorem C92_flat_overnight (env : Env) (w : World) (hw : w.Init) (s : ℕ) (hs : s < w.strategies.length) (hv : env.Valid)
    (hu : Spec.Untouched env s) (henv : Spec.InHours env s) (hliq : Spec.Liquidates env s) (l : List Cmd) (hlv : ∀ c ∈ l, c.Valid)
    (hlu : Spec.UntouchedBy l s) (hl : Spec.NoOpening l s) (hn : ∀ e, Spec.NoRaise env w e l) (i : ℕ) (t : Trade)
    (ht : (w.runCmds env l).trades[i]? = some t) (hts : t.strategy = some s) (ep : Epic)
    (hep : (w.runCmds env l).epics[t.epic]? = some ep) (ho : ¬ Spec.OpenAt ep ep.lastTick.dt.utc) : ¬ Spec.IsOpen t := by
  rw [← gate_run] at ht hep
  have hn : ∀ e, Spec.NoRaise (gate env) w e l := by
    intro e l1 k l2 hl ep h1 h2
    rw [gate_run] at h1 ⊢
    rw [gate_onNewTick]
    exact hn e l1 k l2 hl ep h1 h2
  have hv : (gate env).Valid := fun s cb e w => gate_all (hv s cb e w)
  have hu : Spec.Untouched (gate env) s := fun s' cb e w => gate_all (hu s' cb e w)
  have hliq : Spec.Liquidates (gate env) s := by
    intro e w
    obtain ⟨k, hk⟩ := hliq e w
    refine ⟨k, ?_⟩
    unfold gate
    rw [if_neg (by rintro ⟨h | h, -⟩ <;> cases h)]
    exact hk
  have henv := henv.gate
  revert ht hep hn hv hu hliq henv
  generalize gate env = env
  intro ht hep hn hv hu hliq henv
  have key : ∀ (l : List Cmd) (w : World), FlatInv s w → (∀ c ∈ l, c.Valid) → Spec.UntouchedBy l s → Spec.NoOpening l s →
      (∀ e, Spec.NoRaise env w e l) → FlatInv s (w.runCmds env l) := by
    intro l
    induction l with
    | nil => intro w h _ _ _ _; exact h
    | cons c l ih =>
      intro w h h1 h2 h3 h4
      refine ih _ (h.exec hv hu henv hliq c (h1 c (by simp)) (h2 c (by simp)) (fun e d q hc => h3 e d q (by rw [hc]; simp))
        (fun e k hc ep h5 h6 => h4 e [] k l (by rw [hc]; rfl) ep h5 h6)) (fun x hx => h1 x (by simp [hx])) (fun x hx => h2 x (by simp [hx]))
        (fun e d q hm => h3 e d q (List.mem_cons_of_mem _ hm)) ?_
      intro e l1 k l2 hl ep' h5 h6
      exact h4 e (c :: l1) k l2 (by rw [hl]; rfl) ep' h5 h6
  have h0 : FlatInv s w := by
    refine ⟨.init hw, ?_, HoursInv.init hw, fun i t ht => ?_⟩
    · refine ⟨_, List.getElem?_eq_getElem hs, ?_⟩
      obtain ⟨ref, hr⟩ := hw.strategies _ (List.getElem_mem hs)
      rw [hr]; exact ⟨rfl, rfl⟩
    · rw [hw.trades] at ht; simp at ht
  have hI := key l w h0 hlv hlu hl hn
  have := hI.flat i t ht hts ep hep (by
    rcases hm : ep.marketOpen with _ | _
    · rfl
    · exact absurd (hI.hours.clock _ ep hep hm) ho)
  rw [isOpen_iff, not_not]
  exact t.closed_iff.mp this

end

/-! ## Concrete cases -/

/-- Strategy 0 buys one unit per tick of an open market and sells everything when the market closes; strategy 1 does what it is told when the
market closes. -/
def Demo.dayTrader (other : Prog) : Env := fun s cb e _ =>
  if s = 0 ∧ cb = .everyTickOpen then .act (.openTrade e (some 0) (some .buy) 1) (fun _ _ => .done)
  else if s = 0 ∧ cb = .marketClose then .act (.closeOpened 0 none) (fun _ _ => .done)
  else if s = 1 ∧ cb = .marketClose then other else .done

theorem Demo.dayTrader_inHours (other : Prog) (h : other = .done ∨ other = .raise .attr) : Spec.InHours (Demo.dayTrader other) 0 := by
  intro s cb e w
  unfold Demo.dayTrader
  split_ifs with h1 h2 h3
  · refine ⟨?_, fun _ _ => trivial⟩
    rintro e' d q hq
    injection hq with hq _ _ _
    exact ⟨h1.1, hq.symm, .inr (.inl h1.2)⟩
  · refine ⟨?_, fun _ _ => trivial⟩
    rintro e' d q hq
    cases hq
  · rcases h with rfl | rfl <;> trivial
  · trivial

theorem Demo.dayTrader_valid (other : Prog) (h : other = .done ∨ other = .raise .attr) : (Demo.dayTrader other).Valid := by
  intro s cb e w
  unfold Demo.dayTrader
  split_ifs with h1 h2 h3
  · exact ⟨by simp [Op.Valid], fun _ _ => trivial⟩
  · exact ⟨(by intro n hn; cases hn), fun _ _ => trivial⟩
  · rcases h with rfl | rfl <;> trivial
  · trivial

theorem Demo.dayTrader_untouched (other : Prog) (h : other = .done ∨ other = .raise .attr) : Spec.Untouched (Demo.dayTrader other) 0 := by
  intro s cb e w
  unfold Demo.dayTrader
  split_ifs with h1 h2 h3
  · exact ⟨⟨by simp, by simp⟩, fun _ _ => trivial⟩
  · exact ⟨⟨by simp, by simp⟩, fun _ _ => trivial⟩
  · rcases h with rfl | rfl <;> trivial
  · trivial

theorem Demo.dayTrader_liquidates (other : Prog) : Spec.Liquidates (Demo.dayTrader other) 0 := fun _ _ => ⟨_, rfl⟩

/-- Strategy 1 is registered before strategy 0. -/
def Demo.day : List Cmd := [.addStrategy 0 1, .addStrategy 0 0, .tick 0 (Demo.tk 480 10 12), .tick 0 (Demo.tk 481 11 13), .tick 0 (Demo.tk 961 9 11)]

/-- A day with two trades, both opened in session (the hypotheses of `C92_in_session` hold); when the market closes they are closed. -/
example : letI := Arith.exact
    let w := Demo.world.runCmds (Demo.dayTrader .done) Demo.day
    w.trades.map (fun t => (t.dt.utc == Demo.monday + 480 * minUs || t.dt.utc == Demo.monday + 481 * minUs, t.openQty, t.closed))
      = [(true, 1, true), (true, 1, true)] ∧ w.epics.map Epic.marketOpen = [false, false] := by decide +kernel

/-- C92 without the hypothesis on exceptions. -/
def Spec.C92 [Arith] : Prop :=
  ∀ (env : Env) (w : World), w.Init → ∀ s, s < w.strategies.length → env.Valid → Spec.Untouched env s → Spec.InHours env s →
    Spec.Liquidates env s → ∀ l : List Cmd, (∀ c ∈ l, c.Valid) → Spec.UntouchedBy l s → Spec.NoOpening l s →
    ∀ (i : ℕ) t, (w.runCmds env l).trades[i]? = some t → t.strategy = some s →
    ∀ ep, (w.runCmds env l).epics[t.epic]? = some ep → ¬ Spec.OpenAt ep ep.lastTick.dt.utc → ¬ Spec.IsOpen t

/-- The hypothesis is needed: an exception in `on_market_close` of another strategy, registered earlier, leaves trades open for the night. -/
theorem C92_raising_false : ¬ @Spec.C92 Arith.exact := by
  letI := Arith.exact
  intro h
  have := h (Demo.dayTrader (.raise .attr)) Demo.world Demo.world_init 0 (by decide) (Demo.dayTrader_valid _ (.inr rfl))
    (Demo.dayTrader_untouched _ (.inr rfl)) (Demo.dayTrader_inHours _ (.inr rfl)) (Demo.dayTrader_liquidates _) Demo.day
    (by simp [Demo.day, Cmd.Valid])
    (by intro c hc; simp only [Demo.day, List.mem_cons, List.not_mem_nil, or_false] at hc; rcases hc with rfl | rfl | rfl | rfl | rfl <;> simp)
    (by intro e d q; simp [Demo.day]) 0 _ (List.getElem?_eq_getElem (by decide +kernel)) (by decide +kernel) _
    (List.getElem?_eq_getElem (by decide +kernel))
    (by unfold Spec.OpenAt Spec.Open; decide +kernel)
  rw [isOpen_iff, not_not] at this
  revert this
  decide +kernel

/-- No tick of a run raises. -/
def Demo.calm [Arith] (env : Env) : World → List Cmd → Bool
  | _, [] => true
  | w, c :: l => (match c with
    | .tick e k => decide ((w.onNewTick env e k).2 = none)
    | _ => true) && Demo.calm env (w.exec env c).1 l

theorem Demo.calm_noRaise [Arith] (env : Env) (l : List Cmd) : ∀ w : World, Demo.calm env w l = true → ∀ e, Spec.NoRaise env w e l := by
  induction l with
  | nil => intro w _ e l1 k l2 hl; simp at hl
  | cons c l ih =>
    intro w h e l1 k l2 hl ep h1 h2
    unfold Demo.calm at h
    rw [Bool.and_eq_true] at h
    rcases l1 with _ | ⟨c', l1⟩
    · injection hl with hl _
      subst hl
      exact of_decide_eq_true h.1
    · injection hl with hl hl'
      subst hl
      exact ih _ h.2 e l1 k l2 hl' ep h1 h2

/-- `C92_flat_overnight` for that day. -/
example : letI := Arith.exact; ∀ (i : ℕ) (t : Trade) (_ht : (Demo.world.runCmds (Demo.dayTrader .done) Demo.day).trades[i]? = some t)
    (_hs : t.strategy = some 0) (ep : Epic) (_hep : (Demo.world.runCmds (Demo.dayTrader .done) Demo.day).epics[t.epic]? = some ep)
    (_ho : ¬ Spec.OpenAt ep ep.lastTick.dt.utc), ¬ Spec.IsOpen t :=
  letI := Arith.exact
  fun i t ht hs ep hep ho => C92_flat_overnight _ _ Demo.world_init 0 (by decide) (Demo.dayTrader_valid _ (.inl rfl)) (Demo.dayTrader_untouched _ (.inl rfl))
    (Demo.dayTrader_inHours _ (.inl rfl)) (Demo.dayTrader_liquidates _) Demo.day (by simp [Demo.day, Cmd.Valid])
    (by intro c hc; simp only [Demo.day, List.mem_cons, List.not_mem_nil, or_false] at hc; rcases hc with rfl | rfl | rfl | rfl | rfl <;> simp)
    (by intro e d q; simp [Demo.day]) (Demo.calm_noRaise _ _ _ (by decide +kernel)) i t ht hs ep hep ho

end Estrade
