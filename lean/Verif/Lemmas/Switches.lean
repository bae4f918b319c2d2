import Verif.Lemmas.EpicFront
import Verif.Lemmas.Netting

/-!
# Stopped and paused strategies along runs
-/

set_option linter.unusedSectionVars false
set_option autoImplicit false

namespace Estrade

section
variable [Arith]

/-- Strategy `s` exists and satisfies `P`. -/
def StratP (w : World) (s : ℕ) (P : Strategy → Prop) : Prop := ∃ st, w.strategies[s]? = some st ∧ P st

/-- Effect on the switches of one strategy. -/
structure Switched (s : ℕ) (o : Op) (st st' : Strategy) : Prop where
  stopped : (∀ b, o ≠ .stop s b) → st'.stopped = st.stopped
  paused : (∀ d, o ≠ .pause s d) → st'.pausedUntil = st.pausedUntil
  ref : st'.ref = st.ref

theorem register_strat (w : World) (p i : ℕ) (so : Option ℕ) (s : ℕ) (st : Strategy)
    (h : w.strategies[s]? = some st) : ∃ st', (w.register p i so).strategies[s]? = some st' ∧
      st'.stopped = st.stopped ∧ st'.pausedUntil = st.pausedUntil ∧ st'.ref = st.ref := by
  unfold World.register
  cases so with
  | none => exact ⟨st, h, rfl, rfl, rfl⟩
  | some k =>
    simp only [World.modStrategy, World.modProvider, List.getElem?_modify, h]
    by_cases hk : k = s
    · exact ⟨{ st with trades := st.trades ++ [i] }, by simp [hk], rfl, rfl, rfl⟩
    · exact ⟨st, by simp [hk], rfl, rfl, rfl⟩

theorem runThread_strategies (w : World) (p i : ℕ) (st : Option Status) :
    (w.runThread p i st).1.strategies = w.strategies := by
  unfold World.runThread
  have hs : ∀ (u : World) (tg : Target) (st : Status), (u.setStatus tg st).strategies = u.strategies := by
    intro u tg st; cases tg <;> rfl
  rcases w.providers[p]? with _ | pr
  · rfl
  · dsimp only
    rcases pr.threads[i]? with _ | th
    · rfl
    · dsimp only
      split_ifs
      · cases pr.kind
        · exact hs _ _ _
        · cases st
          · rfl
          · exact hs _ _ _
      · rfl

theorem closeOn_strategies {w w' : World} {p i : ℕ} {q : Option ℤ} (h : w.closeOn p i q = .ok w') :
    w'.strategies = w.strategies := by
  obtain ⟨t, ep, -, -, rfl⟩ := closeOn_eq h; rfl

theorem closeTrade_strategies {w w' : World} {e i : ℕ} {q : Option ℤ} (h : w.closeTrade e i q = .ok w') :
    w'.strategies = w.strategies := by
  unfold World.closeTrade at h
  split at h
  · cases h
  · exact closeOn_strategies h

theorem netLoop_strategies (l : List ℕ) (p : ℕ) (u u' : World) (t t' : Trade)
    (h : netLoop p u t l = .ok (u', t')) : u'.strategies = u.strategies := by
  induction l generalizing u t with
  | nil => injection h with h; injection h with h1 h2; rw [← h1]
  | cons i l ih =>
    unfold netLoop at h
    split at h
    · cases h
    · rename_i x hx
      split_ifs at h
      · exact ih _ _ h
      · simp only at h
        rcases hc : u.closeOn p i (some (min x.openedQty t.openQty)) with err | v
        · rw [hc] at h; cases h
        · rw [hc] at h
          exact (ih _ _ h).trans (closeOn_strategies hc)
      · exact ih _ _ h

theorem closeOpenedLoop_strategies (l : List ℕ) (q : Option ℤ) (u u' : World)
    (h : closeOpenedLoop q u l = .ok u') : u'.strategies = u.strategies := by
  induction l generalizing u with
  | nil => injection h with h; rw [← h]
  | cons i l ih =>
    unfold closeOpenedLoop at h
    split at h
    · cases h
    · rename_i t ht
      split_ifs at h
      · exact ih _ h
      · rcases hc : u.closeTrade t.epic i q with err | v
        · rw [hc] at h; cases h
        · rw [hc] at h
          exact (ih _ h).trans (closeTrade_strategies hc)

/-- An operation only changes the switches it is meant to. -/
theorem step_switched (w : World) (o : Op) (s : ℕ) (st : Strategy) (h : w.strategies[s]? = some st) :
    ∃ st', (w.step o).1.strategies[s]? = some st' ∧ Switched s o st st' := by
  have keep : ∀ w' : World, w'.strategies = w.strategies →
      ∃ st', w'.strategies[s]? = some st' ∧ Switched s o st st' :=
    fun w' hw' => ⟨st, by rw [hw']; exact h, fun _ => rfl, fun _ => rfl, rfl⟩
  cases o with
  | openTrade e so d q =>
    simp only [World.step]
    split
    · exact keep _ rfl
    · rename_i ep hep
      split_ifs
      · rcases ht : Trade.openFromTick ep.lastTick e d q so with err | t
        · exact keep _ rfl
        · simp only [bind, Except.bind]
          unfold World.providerOpen
          rcases hpr : w.providers[ep.provider]? with _ | pr
          · exact keep _ rfl
          · simp only
            rcases hk : pr.kind with _ | _
            · simp only
              rcases hn : netLoop ep.provider w t (w.openedTrades pr) with err | ⟨u, t'⟩
              · exact keep _ rfl
              · simp only [bind, Except.bind]
                have hu := netLoop_strategies _ _ _ _ _ _ hn
                split_ifs
                · exact keep _ hu
                · obtain ⟨st', h1, h2, h3, h4⟩ := register_strat ({ u with trades := u.trades ++ [t'] } : World)
                    ep.provider u.trades.length t.strategy s st (by simp only; rw [hu]; exact h)
                  exact ⟨st', h1, fun _ => h2, fun _ => h3, h4⟩
            · simp only
              obtain ⟨st', h1, h2, h3, h4⟩ := register_strat ({ w with trades := w.trades ++ [t] } : World)
                ep.provider w.trades.length t.strategy s st h
              exact ⟨st', h1, fun _ => h2, fun _ => h3, h4⟩
      · exact keep _ rfl
  | closeTrade e t q =>
    simp only [World.step]
    rcases hc : w.closeTrade e t q with err | v
    · exact keep _ rfl
    · exact keep _ (closeTrade_strategies hc)
  | closeOpened k q =>
    simp only [World.step]
    split
    · exact keep _ rfl
    · rename_i x hx
      rcases hc : closeOpenedLoop q w x.trades.reverse with err | v
      · exact keep _ rfl
      · exact keep _ (closeOpenedLoop_strategies _ _ _ _ hc)
  | update t v => exact keep _ rfl
  | close t v dt q => exact keep _ rfl
  | pause k d =>
    simp only [World.step, World.modStrategy, List.getElem?_modify, h]
    by_cases hk : k = s
    · exact ⟨{ st with pausedUntil := d }, by simp [hk], fun _ => rfl, fun hn => absurd rfl (hk ▸ hn d), rfl⟩
    · exact ⟨st, by simp [hk], fun _ => rfl, fun _ => rfl, rfl⟩
  | stop k b =>
    simp only [World.step, World.modStrategy, List.getElem?_modify, h]
    by_cases hk : k = s
    · exact ⟨{ st with stopped := b }, by simp [hk], fun hn => absurd rfl (hk ▸ hn b), fun _ => rfl, rfl⟩
    · exact ⟨st, by simp [hk], fun _ => rfl, fun _ => rfl, rfl⟩
  | thread p i x => exact keep _ (runThread_strategies w p i x)

/-- The callbacks of `env` keep `P` of strategy `s`. -/
def Keeps (env : Env) (s : ℕ) (P : Strategy → Prop) : Prop :=
  ∀ s' cb e w, StratP w s P → StratP ((env s' cb e w).run w).1 s P

theorem prog_keeps {Q : Op → Prop} {s : ℕ} {P : Strategy → Prop}
    (h : ∀ o st st', Q o → Switched s o st st' → P st → P st') (p : Prog) (hp : p.All Q) (w : World)
    (hw : StratP w s P) : StratP (p.run w).1 s P := by
  induction p generalizing w with
  | done => exact hw
  | raise e => exact hw
  | act o k ih =>
    obtain ⟨st, h1, h2⟩ := hw
    obtain ⟨st', h3, h4⟩ := step_switched w o s st h1
    exact ih _ _ (hp.2 _ _) _ ⟨st', h3, h _ _ _ hp.1 h4 h2⟩

theorem call_keeps {env : Env} {s : ℕ} {P : Strategy → Prop} (hk : Keeps env s P) (w : World)
    (hw : StratP w s P) (s' : ℕ) (cb : Cb) (e : ℕ) : StratP (w.call env s' cb e).1 s P :=
  hk _ _ _ _ hw

theorem callIf_keeps {env : Env} {s : ℕ} {P : Strategy → Prop} (hk : Keeps env s P) (w : World)
    (hw : StratP w s P) (c : Bool) (s' : ℕ) (cb : Cb) (e : ℕ) : StratP (w.callIf env c s' cb e).1 s P := by
  unfold World.callIf
  split_ifs
  · exact call_keeps hk w hw s' cb e
  · exact hw

theorem andThen_keeps {s : ℕ} {P : Strategy → Prop} {r : World × Option PyErr} {f : World → World × Option PyErr}
    (h1 : StratP r.1 s P) (h2 : ∀ w, StratP w s P → StratP (f w).1 s P) : StratP (andThen r f).1 s P := by
  rcases andThen_cases r f with ⟨-, h⟩ | ⟨-, h⟩
  · rw [h]; exact h2 _ h1
  · rw [h]; exact h1

theorem notifyAll_keeps {env : Env} {s : ℕ} {P : Strategy → Prop} (hk : Keeps env s P) (w : World)
    (hw : StratP w s P) (e s' : ℕ) (b : Bool) : StratP (w.notifyAll env e s' b).1 s P := by
  unfold World.notifyAll
  refine andThen_keeps (callIf_keeps hk _ hw _ _ _ _) (fun w hw => ?_)
  refine andThen_keeps (callIf_keeps hk _ hw _ _ _ _) (fun w hw => ?_)
  refine andThen_keeps (callIf_keeps hk _ hw _ _ _ _) (fun w hw => ?_)
  exact call_keeps hk _ hw _ _ _

theorem set_strat {w : World} {s s' : ℕ} {P : Strategy → Prop} {st' x : Strategy} (hw : StratP w s P)
    (h' : w.strategies[s']? = some st') (hx : P st' → P x) :
    StratP { w with strategies := w.strategies.set s' x } s P := by
  obtain ⟨st, h1, h2⟩ := hw
  unfold StratP
  simp only [List.getElem?_set]
  by_cases h : s' = s
  · subst h
    rw [h'] at h1; injection h1 with h1; subst h1
    exact ⟨x, by simp [getElem?_lt h'], hx h2⟩
  · exact ⟨st, by simp [h, h1], h2⟩

theorem execStrategy_keeps {env : Env} {s : ℕ} {P : Strategy → Prop} (hk : Keeps env s P) {dt : DT}
    (hP : ∀ st, P st → P (st.isActive dt).2) (w : World) (hw : StratP w s P) (e s' : ℕ) (b : Bool) :
    StratP (w.execStrategy env e s' b dt).1 s P := by
  unfold World.execStrategy
  rcases hs : w.strategies[s']? with _ | st
  · exact hw
  · simp only
    have := set_strat hw hs (hP st)
    split_ifs
    · exact notifyAll_keeps hk _ this e s' b
    · exact this

theorem execStrategies_keeps {env : Env} {s : ℕ} {P : Strategy → Prop} (hk : Keeps env s P) {dt : DT}
    (hP : ∀ st, P st → P (st.isActive dt).2) (l : List ℕ) (w : World) (hw : StratP w s P) (e : ℕ) (b : Bool) :
    StratP (execStrategies env e b dt w l).1 s P := by
  induction l generalizing w with
  | nil => exact hw
  | cons s' rest ih =>
    unfold execStrategies
    exact andThen_keeps (execStrategy_keeps hk hP w hw e s' b) (fun w hw => ih w hw)

/-! ## What a strategy hears -/

/-- Spec: the callbacks of strategy `s` from epic `e`, in order. -/
def Spec.heard (s e : ℕ) (log : List Event) : List Cb :=
  log.filterMap (fun ev => match ev with
    | .notify s' e' cb => if s' = s ∧ e' = e then some cb else none
    | .accepted _ _ => none)

/-- Spec: what a strategy is to be told about a tick: was the market open before, is it now. -/
def Spec.notifications : Bool → Bool → List Cb
  | true, false => [.marketClose, .everyTick]
  | false, true => [.marketOpen, .everyTickOpen, .everyTick]
  | true, true => [.everyTickOpen, .everyTick]
  | false, false => [.everyTick]

theorem notifyBlock_eq (s e : ℕ) (before now : Bool) :
    notifyBlock s e before now = (Spec.notifications before now).map (Event.notify s e) := by
  cases before <;> cases now <;> rfl

theorem heard_append (s e : ℕ) (a b : List Event) :
    Spec.heard s e (a ++ b) = Spec.heard s e a ++ Spec.heard s e b := by
  unfold Spec.heard; rw [List.filterMap_append]

theorem heard_block (s e s' e' : ℕ) (before now : Bool) :
    Spec.heard s e (notifyBlock s' e' before now) =
      if s' = s ∧ e' = e then Spec.notifications before now else [] := by
  rw [notifyBlock_eq]
  unfold Spec.heard
  rw [List.filterMap_map]
  split_ifs with h
  · obtain ⟨rfl, rfl⟩ := h
    have : (fun x => x) ∘ Event.notify s' e' = Event.notify s' e' := rfl
    rw [List.filterMap_congr (g := some)]
    · simp
    · intro x _; simp
  · rw [List.filterMap_eq_nil_iff]
    intro x _; simp [h]

theorem heard_prefix (s e s' e' : ℕ) (before now : Bool) (L : List Event)
    (hL : L <+: notifyBlock s' e' before now) (h : ¬ (s' = s ∧ e' = e)) : Spec.heard s e L = [] := by
  obtain ⟨M, hM⟩ := hL
  have := heard_block s e s' e' before now
  rw [if_neg h, ← hM, heard_append] at this
  exact (List.append_eq_nil_iff.mp this).1

/-- A strategy that stays inactive hears nothing. -/
theorem execStrategies_blocked {env : Env} {s : ℕ} {P : Strategy → Prop} (hk : Keeps env s P) {dt : DT}
    (hP : ∀ st, P st → ¬ Spec.Active st dt) (l : List ℕ) (w : World) (hw : StratP w s P) (e : ℕ) (b : Bool) :
    StratP (execStrategies env e b dt w l).1 s P ∧
    ∃ L, (execStrategies env e b dt w l).1.log = w.log ++ L ∧ ∀ e', Spec.heard s e' L = [] := by
  have hP' : ∀ st, P st → P (st.isActive dt).2 := by
    intro st hst
    have hn := hP st hst
    rw [← isActive_iff] at hn
    have : (st.isActive dt).2 = st := by
      unfold Strategy.isActive at hn ⊢
      split_ifs at hn ⊢ with h1
      · rfl
      · split at hn
        · exact absurd rfl hn
        · rename_i p hp
          split_ifs at hn ⊢
          · rfl
          · exact absurd rfl hn
    rw [this]; exact hst
  induction l generalizing w with
  | nil => exact ⟨hw, [], by simp [execStrategies], fun _ => rfl⟩
  | cons s' rest ih =>
    have hkeep := execStrategy_keeps hk hP' w hw e s' b
    obtain ⟨h1, L, h2, h3, h4, -⟩ := execStrategy_log env w e s' b dt
    have hL : ∀ e', Spec.heard s e' L = [] := by
      intro e'
      by_cases hs : s' = s
      · subst hs
        obtain ⟨st, g1, g2⟩ := hw
        rw [(h4 st g1 (hP st g2)).1]; rfl
      · exact heard_prefix s e' s' e _ _ L h3 (fun h => hs h.1)
    unfold execStrategies
    rcases andThen_cases (w.execStrategy env e s' b dt) (fun w => execStrategies env e b dt w rest)
      with ⟨-, h⟩ | ⟨-, h⟩
    · rw [h]
      obtain ⟨i1, L', i2, i3⟩ := ih _ hkeep
      exact ⟨i1, L ++ L', by rw [i2, h2, List.append_assoc], fun e' => by rw [heard_append, hL, i3]; rfl⟩
    · rw [h]
      exact ⟨hkeep, L, h2, hL⟩

/-- A strategy that stays active hears everything; after its first turn it satisfies `R`. -/
theorem execStrategies_active {env : Env} {s : ℕ} {P : Strategy → Prop} (hk : Keeps env s P) {dt : DT}
    (hP : ∀ st, P st → Spec.Active st dt) (hP' : ∀ st, P st → P (st.isActive dt).2)
    (l : List ℕ) (w : World) (hw : StratP w s P) (e : ℕ) (b : Bool)
    (hok : (execStrategies env e b dt w l).2 = none) :
    ∃ L, (execStrategies env e b dt w l).1.log = w.log ++ L ∧ (∀ e', e' ≠ e → Spec.heard s e' L = []) ∧
      Spec.heard s e L =
        (l.filter (fun x => decide (x = s))).flatMap (fun _ => Spec.notifications b (w.marketOpen e)) := by
  induction l generalizing w with
  | nil => exact ⟨[], by simp [execStrategies], fun _ _ => rfl, rfl⟩
  | cons s' rest ih =>
    have hkeep := execStrategy_keeps hk hP' w hw e s' b
    obtain ⟨h1, L, h2, h3, -, h5⟩ := execStrategy_log env w e s' b dt
    unfold execStrategies at hok ⊢
    rcases andThen_cases (w.execStrategy env e s' b dt) (fun w => execStrategies env e b dt w rest)
      with ⟨hn, h⟩ | ⟨hne, h⟩
    · rw [h] at hok ⊢
      obtain ⟨L', i2, i3, i4⟩ := ih _ hkeep hok
      refine ⟨L ++ L', by rw [i2, h2, List.append_assoc], fun e' he' => ?_, ?_⟩
      · rw [heard_append, i3 e' he', heard_prefix s e' s' e _ _ L h3 (fun h => he' h.2.symm)]; rfl
      · rw [heard_append, i4, marketOpen_congr h1, List.filter_cons]
        by_cases hs : s' = s
        · subst hs
          obtain ⟨st, g1, g2⟩ := hw
          rw [h5 st g1 (hP st g2) hn, heard_block]
          simp
        · rw [heard_prefix s e s' e _ _ L h3 (fun h => hs h.1)]
          simp [hs]
    · rw [h] at hok; exact absurd hok hne

/-! ## Ticks and commands -/

/-- The three outcomes of a tick. -/
theorem onNewTick_cases (env : Env) (w : World) (e : ℕ) (k : Tick) :
    ((w.onNewTick env e k).1 = w ∧ (w.onNewTick env e k).2 ≠ none ∧
      ∀ ep, w.epics[e]? = some ep → (Spec.localTick ep.zone k).dt.lt ep.lastTick.dt = true) ∨
    (∃ ep, w.epics[e]? = some ep ∧ (Spec.localTick ep.zone k).dt.lt ep.lastTick.dt = false ∧
      (w.onNewTick env e k).2 ≠ none ∧
      (w.onNewTick env e k).1 = { w with
        epics := w.epics.set e (ep.accept (Spec.localTick ep.zone k)).1
        log := w.log ++ [.accepted e (Spec.localTick ep.zone k)] }) ∨
    ∃ ep w1, w.epics[e]? = some ep ∧ (Spec.localTick ep.zone k).dt.lt ep.lastTick.dt = false ∧
      w.onNewTick env e k = execStrategies env e ep.marketOpen (Spec.localTick ep.zone k).dt w1
        (ep.strategies.map Prod.snd) ∧
      w1.epics = w.epics.set e (ep.accept (Spec.localTick ep.zone k)).1 ∧
      w1.log = w.log ++ [.accepted e (Spec.localTick ep.zone k)] ∧ w1.strategies = w.strategies := by
  unfold World.onNewTick
  rcases hep : w.epics[e]? with _ | ep
  · left; exact ⟨rfl, by simp, by simp⟩
  · simp only
    change _ ∨ _ ∨ ∃ ep_1 w1, some ep = some ep_1 ∧ _
    have hk : ({ k with dt := k.dt.to ep.zone } : Tick) = Spec.localTick ep.zone k := rfl
    have hk2 : k.dt.to ep.zone = (Spec.localTick ep.zone k).dt := rfl
    rw [hk2]
    have hk3 : ({ k with dt := (Spec.localTick ep.zone k).dt } : Tick) = Spec.localTick ep.zone k := rfl
    simp only [hk3]
    rcases hr : (Spec.localTick ep.zone k).dt.lt ep.lastTick.dt with _ | _
    · simp only [Bool.false_eq_true, if_false]
      rcases ha : (ep.accept (Spec.localTick ep.zone k)).2 with _ | err
      · right; right
        obtain ⟨r1, r2, r3, r4⟩ := updateOpenTrades_rest ({ w with
          epics := w.epics.set e (ep.accept (Spec.localTick ep.zone k)).1
          log := w.log ++ [.accepted e (Spec.localTick ep.zone k)] } : World) ep.provider (Spec.localTick ep.zone k)
        exact ⟨ep, _, rfl, hr, rfl, r1, r4, r3⟩
      · right; left
        exact ⟨ep, rfl, hr, by simp, rfl⟩
    · left
      refine ⟨by simp, by simp, fun ep' h => ?_⟩
      injection h with h; rw [← h]; exact hr

/-- The switches of a strategy only change by operations and ticks. -/
theorem exec_switched (env : Env) (w : World) (c : Cmd) (s : ℕ) (st : Strategy) (h : w.strategies[s]? = some st)
    (hc : ∀ e t, c ≠ .tick e t) (ho : ∀ o, c ≠ .op o) :
    ∃ st', (w.exec env c).1.strategies[s]? = some st' ∧ st'.stopped = st.stopped ∧
      st'.pausedUntil = st.pausedUntil ∧ st'.ref = st.ref := by
  have keep : ∀ w' : World, w'.strategies = w.strategies →
      ∃ st', w'.strategies[s]? = some st' ∧ st'.stopped = st.stopped ∧
      st'.pausedUntil = st.pausedUntil ∧ st'.ref = st.ref :=
    fun w' hw' => ⟨st, by rw [hw']; exact h, rfl, rfl, rfl⟩
  cases c with
  | tick e t => exact absurd rfl (hc e t)
  | op o => exact absurd rfl (ho o)
  | addFrameSet e ref fs =>
    simp only [World.exec, World.addFrameSet]
    split
    · exact keep _ rfl
    · split
      · exact keep _ rfl
      · exact keep _ rfl
  | addIndicator e ref ind =>
    simp only [World.exec, World.addIndicator]
    split
    · exact keep _ rfl
    · split
      · exact keep _ rfl
      · exact keep _ rfl
  | addStrategy e k =>
    simp only [World.exec, World.addStrategy]
    rcases w.epics[e]? with _ | ep
    · exact keep _ rfl
    · rcases hk : w.strategies[k]? with _ | sk
      · exact keep _ rfl
      · simp only
        split
        · exact keep _ rfl
        · simp only [World.modEpic, World.modStrategy, List.getElem?_modify, h]
          by_cases hks : k = s
          · exact ⟨{ st with epics := (st.epics.set ep.ref e) }, by simp [hks], rfl, rfl, rfl⟩
          · exact ⟨st, by simp [hks], rfl, rfl, rfl⟩

/-! ## Registrations -/

/-- Registered strategies exist under their own reference. -/
def Registered (w : World) : Prop := ∀ ep ∈ w.epics, ∀ p ∈ ep.strategies, StratP w p.2 (fun st => st.ref = p.1)

theorem onNewTick_ref (env : Env) (w : World) (e : ℕ) (k : Tick) (s : ℕ) (r : String)
    (hw : StratP w s (fun st => st.ref = r)) : StratP (w.onNewTick env e k).1 s (fun st => st.ref = r) := by
  have hk : Keeps env s (fun st => st.ref = r) := fun s' cb e w hw =>
    prog_keeps (Q := fun _ => True) (fun o st st' _ hs h => hs.ref.trans h) _ (Prog.all_of_forall (fun _ => trivial) _) w hw
  have hP : ∀ (dt : DT) (st : Strategy), st.ref = r → (st.isActive dt).2.ref = r := by
    intro dt st h
    unfold Strategy.isActive
    split_ifs
    · exact h
    · split
      · exact h
      · split_ifs
        · exact h
        · exact h
  rcases onNewTick_cases env w e k with ⟨h, -⟩ | ⟨ep, -, -, -, h⟩ | ⟨ep, w1, -, -, h, -, -, h1⟩
  · rw [h]; exact hw
  · rw [h]; exact hw
  · rw [h]
    exact execStrategies_keeps hk (hP _) _ _ (by unfold StratP; rw [h1]; exact hw) _ _

theorem exec_ref (env : Env) (w : World) (c : Cmd) (s : ℕ) (r : String)
    (hw : StratP w s (fun st => st.ref = r)) : StratP (w.exec env c).1 s (fun st => st.ref = r) := by
  by_cases hc : ∃ e t, c = .tick e t
  · obtain ⟨e, t, rfl⟩ := hc
    exact onNewTick_ref env w e t s r hw
  · push Not at hc
    obtain ⟨st, h1, h2⟩ := hw
    by_cases ho : ∃ o, c = .op o
    · obtain ⟨o, rfl⟩ := ho
      obtain ⟨st', h3, h4⟩ := step_switched w o s st h1
      exact ⟨st', h3, h4.ref.trans h2⟩
    · push Not at ho
      obtain ⟨st', h3, -, -, h4⟩ := exec_switched env w c s st h1 hc ho
      exact ⟨st', h3, h4.trans h2⟩

/-- The registered strategies of an epic after a command. -/
theorem exec_regs (env : Env) (w : World) (c : Cmd) (e : ℕ) (ep' : Epic)
    (h : (w.exec env c).1.epics[e]? = some ep') : ∃ ep, w.epics[e]? = some ep ∧ ep'.zone = ep.zone ∧
      (ep'.strategies = ep.strategies ∨ ∃ s st, c = .addStrategy e s ∧ w.strategies[s]? = some st ∧
        ep.strategies.get? st.ref = none ∧ ep'.strategies = ep.strategies ++ [(st.ref, s)]) := by
  have same : w.epics[e]? = some ep' → ∃ ep, w.epics[e]? = some ep ∧ ep'.zone = ep.zone ∧
      (ep'.strategies = ep.strategies ∨ ∃ s st, c = .addStrategy e s ∧ w.strategies[s]? = some st ∧
        ep.strategies.get? st.ref = none ∧ ep'.strategies = ep.strategies ++ [(st.ref, s)]) :=
    fun h => ⟨ep', h, rfl, .inl rfl⟩
  have hset : ∀ (e0 : ℕ) (ep0 x : Epic), w.epics[e0]? = some ep0 → x.zone = ep0.zone → x.strategies = ep0.strategies →
      (w.epics.set e0 x)[e]? = some ep' → ∃ ep, w.epics[e]? = some ep ∧ ep'.zone = ep.zone ∧
      (ep'.strategies = ep.strategies ∨ ∃ s st, c = .addStrategy e s ∧ w.strategies[s]? = some st ∧
        ep.strategies.get? st.ref = none ∧ ep'.strategies = ep.strategies ++ [(st.ref, s)]) := by
    intro e0 ep0 x h0 hz hx he
    rw [List.getElem?_set] at he
    by_cases h' : e0 = e
    · subst h'
      rw [if_pos rfl, if_pos (getElem?_lt h0)] at he
      injection he with he; subst he
      exact ⟨ep0, h0, hz, .inl hx⟩
    · rw [if_neg h'] at he
      exact ⟨ep', he, rfl, .inl rfl⟩
  cases c with
  | tick e0 t =>
    rcases tick_effect env w e0 t with ⟨g, -⟩ | ⟨ep, g1, g2, g3, g4⟩
    · rw [g] at h; exact same h
    · rw [g3] at h
      exact hset e0 ep _ g1 (by rfl) (by rfl) h
  | op o =>
    have h : (w.step o).1.epics[e]? = some ep' := h
    rw [(step_epics w o).1] at h; exact same h
  | addFrameSet e0 ref fs =>
    simp only [World.exec, World.addFrameSet] at h
    rcases h0 : w.epics[e0]? with _ | ep0
    · rw [h0] at h; exact same h
    · rw [h0] at h
      simp only [Epic.addFrameSet] at h
      rcases hg : ep0.frameSets.get? ref with _ | g
      · rw [hg] at h; exact hset e0 ep0 _ h0 (by rfl) (by rfl) h
      · rw [hg] at h; exact same h
  | addIndicator e0 ref ind =>
    simp only [World.exec, World.addIndicator] at h
    rcases h0 : w.epics[e0]? with _ | ep0
    · rw [h0] at h; exact same h
    · rw [h0] at h
      simp only at h
      rcases hg : ep0.frameSets.get? ref with _ | g
      · rw [hg] at h; exact same h
      · rw [hg] at h; exact hset e0 ep0 _ h0 (by rfl) (by rfl) h
  | addStrategy e0 s =>
    simp only [World.exec, World.addStrategy] at h
    rcases h0 : w.epics[e0]? with _ | ep0
    · rw [h0] at h; exact same h
    · rcases hs : w.strategies[s]? with _ | st
      · rw [h0, hs] at h; exact same h
      · rw [h0, hs] at h
        simp only at h
        rcases hg : ep0.strategies.get? st.ref with _ | g
        · rw [hg] at h
          simp only [World.modEpic, World.modStrategy] at h
          rw [← set_eq_modify _ _ _ _ h0, List.getElem?_set] at h
          by_cases he : e0 = e
          · subst he
            rw [if_pos rfl, if_pos (getElem?_lt h0)] at h
            injection h with h; subst h
            exact ⟨ep0, h0, rfl, .inr ⟨s, st, rfl, hs, hg, Dict.set_new _ _ _ hg⟩⟩
          · rw [if_neg he] at h; exact same h
        · rw [hg] at h; exact same h

theorem exec_registered (env : Env) (w : World) (c : Cmd) (hw : Registered w) : Registered (w.exec env c).1 := by
  intro ep' hep' p hp
  obtain ⟨e, he⟩ := List.mem_iff_getElem?.mp hep'
  obtain ⟨ep, h1, -, h2⟩ := exec_regs env w c e ep' he
  apply exec_ref
  rcases h2 with h2 | ⟨s, st, -, h3, -, h4⟩
  · rw [h2] at hp; exact hw ep (List.mem_of_getElem? h1) p hp
  · rw [h4, List.mem_append, List.mem_singleton] at hp
    rcases hp with hp | rfl
    · exact hw ep (List.mem_of_getElem? h1) p hp
    · exact ⟨st, h3, rfl⟩

/-- In every reachable state the strategies registered with an epic exist and are pairwise different. -/
theorem Reachable.registered {env : Env} {w : World} (hw : Reachable env w) :
    Registered w ∧ ∀ ep ∈ w.epics, (ep.strategies.map Prod.snd).Nodup := by
  obtain ⟨w0, h0, l, rfl⟩ := hw
  have P : ∀ (l : List Cmd) (w : World), (Registered w ∧ ∀ ep ∈ w.epics, (ep.strategies.map Prod.snd).Nodup) →
      Registered (w.runCmds env l) ∧ ∀ ep ∈ (w.runCmds env l).epics, (ep.strategies.map Prod.snd).Nodup := by
    intro l
    induction l with
    | nil => intro w h; exact h
    | cons c l ih =>
      intro w ⟨hr, hn⟩
      rw [runCmds_cons]
      refine ih _ ⟨exec_registered env w c hr, ?_⟩
      intro ep' hep'
      obtain ⟨e, he⟩ := List.mem_iff_getElem?.mp hep'
      obtain ⟨ep, h1, -, h2⟩ := exec_regs env w c e ep' he
      have hm := List.mem_of_getElem? h1
      rcases h2 with h2 | ⟨s, st, -, h3, h4, h5⟩
      · rw [h2]; exact hn ep hm
      · rw [h5, List.map_append, List.nodup_append]
        refine ⟨hn ep hm, by simp, ?_⟩
        intro a ha b hb hab
        rw [List.map_singleton, List.mem_singleton] at hb
        obtain ⟨p, hp, rfl⟩ := List.mem_map.mp ha
        obtain ⟨x, hx1, hx2⟩ := hr ep hm p hp
        rw [hab, hb, h3] at hx1
        injection hx1 with hx1; subst hx1
        apply (Dict.get?_eq_none _ _).mp h4
        rw [hx2]
        exact List.mem_map_of_mem hp
  refine P l w0 ⟨?_, ?_⟩
  · intro ep hep p hp
    obtain ⟨ref, z, o, c, td, hd, q, -, rfl⟩ := h0.epics ep hep
    cases hp
  · intro ep hep
    obtain ⟨ref, z, o, c, td, hd, q, -, rfl⟩ := h0.epics ep hep
    exact List.nodup_nil

end
end Estrade
