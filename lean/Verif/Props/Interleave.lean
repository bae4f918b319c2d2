import Verif.Props.Results
import Verif.Lemmas.Marked

/-!
# C69: ticks of different epics commute
-/

set_option linter.style.haveILetI false
set_option linter.unusedSectionVars false
set_option autoImplicit false

namespace Estrade

section
variable [Arith]

/-- Spec: the same objects; only the record of what happened in which order may differ. -/
def Spec.SameState (w w' : World) : Prop :=
  w.epics = w'.epics ∧ w.strategies = w'.strategies ∧ w.providers = w'.providers ∧ w.trades = w'.trades

/-- Spec: the ticks `(e, k)` delivered one after another. -/
def Spec.deliver (env : Env) (w : World) (l : List (ℕ × Tick)) : World := w.runCmds env (l.map fun x => .tick x.1 x.2)

theorem Spec.SameState.refl (w : World) : Spec.SameState w w := ⟨rfl, rfl, rfl, rfl⟩

theorem Spec.SameState.symm {w w' : World} (h : Spec.SameState w w') : Spec.SameState w' w :=
  ⟨h.1.symm, h.2.1.symm, h.2.2.1.symm, h.2.2.2.symm⟩

theorem Spec.SameState.trans {a b c : World} (h : Spec.SameState a b) (h' : Spec.SameState b c) : Spec.SameState a c :=
  ⟨h.1.trans h'.1, h.2.1.trans h'.2.1, h.2.2.1.trans h'.2.2.1, h.2.2.2.trans h'.2.2.2⟩

/-! ## Strategies that do nothing -/

/-- What a tick at `dt` leaves of strategies that do nothing: pauses that are over are forgotten. -/
def wake (dt : DT) : List ℕ → List Strategy → List Strategy
  | [], l => l
  | s :: rest, l => if s < l.length then wake dt rest (l.modify s (fun st => (st.isActive dt).2)) else l

theorem modify_comm {α : Type} (f g : α → α) (h : ∀ x, f (g x) = g (f x)) (l : List α) (i j : ℕ) :
    (l.modify i f).modify j g = (l.modify j g).modify i f := by
  apply List.ext_getElem?
  intro k
  rw [List.getElem?_modify, List.getElem?_modify, List.getElem?_modify, List.getElem?_modify]
  rcases l[k]? with _ | x
  · rfl
  · simp only [Option.map_eq_map, Option.map_some]
    split_ifs <;> simp [h]

theorem wake_step_comm (a b : DT) (st : Strategy) : ((st.isActive a).2.isActive b).2 = ((st.isActive b).2.isActive a).2 := by
  unfold Strategy.isActive
  by_cases hs : st.stopped = true
  · simp [hs]
  · rcases hp : st.pausedUntil with _ | p
    · simp [hs, hp]
    · simp only [hs]
      by_cases h1 : a.lt p = true <;> by_cases h2 : b.lt p = true <;> simp [h1, h2, hs, hp]

theorem wake_length (dt : DT) (ids : List ℕ) : ∀ l : List Strategy, (wake dt ids l).length = l.length := by
  induction ids with
  | nil => intro l; rfl
  | cons s rest ih =>
    intro l
    unfold wake
    split_ifs
    · rw [ih, List.length_modify]
    · rfl

theorem wake_modify (a b : DT) (s : ℕ) (ids : List ℕ) : ∀ l : List Strategy,
    wake a ids (l.modify s (fun st => (st.isActive b).2)) = (wake a ids l).modify s (fun st => (st.isActive b).2) := by
  induction ids with
  | nil => intro l; rfl
  | cons x rest ih =>
    intro l
    unfold wake
    rw [List.length_modify]
    split_ifs
    · rw [← ih, modify_comm _ _ (fun st => wake_step_comm a b st)]
    · rfl

theorem wake_comm (a b : DT) (ids ids' : List ℕ) : ∀ l : List Strategy, wake a ids (wake b ids' l) = wake b ids' (wake a ids l) := by
  induction ids with
  | nil => intro l; rfl
  | cons s rest ih =>
    intro l
    conv_lhs => unfold wake
    conv_rhs => rw [wake]
    rw [wake_length]
    split_ifs
    · rw [← wake_modify, ih]
    · rfl

theorem call_silent {env : Env} (hs : Spec.Silent env) (w : World) (s : ℕ) (cb : Cb) (e : ℕ) :
    ∃ lg, w.call env s cb e = ({ w with log := lg }, none) := by
  unfold World.call
  dsimp only
  rw [hs]
  exact ⟨_, rfl⟩

theorem callIf_silent {env : Env} (hs : Spec.Silent env) (c : Bool) (w : World) (s : ℕ) (cb : Cb) (e : ℕ) :
    ∃ lg, w.callIf env c s cb e = ({ w with log := lg }, none) := by
  unfold World.callIf
  split_ifs
  · exact call_silent hs w s cb e
  · exact ⟨w.log, rfl⟩

theorem notifyAll_quiet {env : Env} (hs : Spec.Silent env) (w : World) (e s : ℕ) (b : Bool) :
    ∃ lg, w.notifyAll env e s b = ({ w with log := lg }, none) := by
  have hthen : ∀ (r : World × Option PyErr) (f : World → World × Option PyErr), (∃ lg, r = ({ w with log := lg }, none)) →
      (∀ lg, ∃ lg', f { w with log := lg } = ({ w with log := lg' }, none)) → ∃ lg, andThen r f = ({ w with log := lg }, none) := by
    rintro _ f ⟨lg, rfl⟩ h
    exact h lg
  unfold World.notifyAll
  refine hthen _ _ (callIf_silent hs _ _ _ _ _) (fun lg => ?_)
  refine hthen _ _ (callIf_silent hs _ { w with log := lg } _ _ _) (fun lg => ?_)
  refine hthen _ _ (callIf_silent hs _ { w with log := lg } _ _ _) (fun lg => ?_)
  exact call_silent hs { w with log := lg } s .everyTick e

theorem execStrategies_quiet {env : Env} (hs : Spec.Silent env) (e : ℕ) (b : Bool) (dt : DT) (ids : List ℕ) :
    ∀ w : World, ∃ lg, (execStrategies env e b dt w ids).1 = { w with strategies := wake dt ids w.strategies, log := lg } := by
  induction ids with
  | nil => intro w; exact ⟨w.log, rfl⟩
  | cons s rest ih =>
    intro w
    unfold execStrategies wake World.execStrategy
    rcases hst : w.strategies[s]? with _ | st
    · rw [if_neg (by rw [List.getElem?_eq_none_iff] at hst; omega)]
      exact ⟨w.log, rfl⟩
    · have hlt : s < w.strategies.length := (List.getElem?_eq_some_iff.mp hst).1
      rw [if_pos hlt]
      have hset : w.strategies.set s (st.isActive dt).2 = w.strategies.modify s (fun st => (st.isActive dt).2) := by
        apply List.ext_getElem?
        intro k
        rw [List.getElem?_set, List.getElem?_modify]
        by_cases hk : s = k
        · subst hk
          rw [if_pos rfl, if_pos hlt, hst]
          simp
        · rw [if_neg hk]
          rcases w.strategies[k]? with _ | x <;> simp [hk]
      dsimp only
      rw [hset]
      split_ifs
      · obtain ⟨lg, h⟩ := notifyAll_quiet hs { w with strategies := w.strategies.modify s (fun st => (st.isActive dt).2) } e s b
        rw [h]
        exact ih { w with strategies := w.strategies.modify s (fun st => (st.isActive dt).2), log := lg }
      · exact ih { w with strategies := w.strategies.modify s (fun st => (st.isActive dt).2) }

/-! ## One tick -/

/-- What a tick does to its epic, and the tick as trades and strategies see it, if they do. -/
def tickOut (ep : Epic) (k : Tick) : Epic × Option Tick :=
  if (Spec.localTick ep.zone k).dt.lt ep.lastTick.dt then (ep, none)
  else match (ep.accept (Spec.localTick ep.zone k)).2 with
    | some _ => ((ep.accept (Spec.localTick ep.zone k)).1, none)
    | none => ((ep.accept (Spec.localTick ep.zone k)).1, some (Spec.localTick ep.zone k))

/-- Trades after a tick. -/
def tickTrades (w : World) (p : ℕ) : Option Tick → List Trade
  | none => w.trades
  | some k => (w.updateOpenTrades p k).trades

/-- Strategies after a tick. -/
def tickStrats (ids : List ℕ) (l : List Strategy) : Option Tick → List Strategy
  | none => l
  | some k => wake k.dt ids l

theorem updateOpenTrades_only (w w' : World) (h1 : w.providers = w'.providers) (h2 : w.trades = w'.trades) (p : ℕ) (k : Tick) :
    (w.updateOpenTrades p k).trades = (w'.updateOpenTrades p k).trades := by
  unfold World.updateOpenTrades
  rw [h1]
  rcases w'.providers[p]? with _ | pr
  · exact h2
  · simp only
    rw [foldl_world_trades, foldl_world_trades]
    simp only
    unfold World.openedTrades
    rw [h2]

theorem onNewTick_silent {env : Env} (hs : Spec.Silent env) {w : World} {e : ℕ} {ep : Epic} (hep : w.epics[e]? = some ep) (k : Tick) :
    Spec.SameState (w.onNewTick env e k).1 { w with
      epics := w.epics.set e (tickOut ep k).1
      trades := tickTrades w ep.provider (tickOut ep k).2
      strategies := tickStrats (ep.strategies.map Prod.snd) w.strategies (tickOut ep k).2 } := by
  unfold World.onNewTick tickOut
  simp only [hep]
  change Spec.SameState (if (Spec.localTick ep.zone k).dt.lt ep.lastTick.dt = true then _ else _ : World × Option PyErr).1 _
  by_cases hlt : (Spec.localTick ep.zone k).dt.lt ep.lastTick.dt = true
  · rw [if_pos hlt, if_pos hlt]
    refine ⟨?_, rfl, rfl, rfl⟩
    show w.epics = w.epics.set e ep
    apply List.ext_getElem?
    intro j
    rw [List.getElem?_set]
    split_ifs with h1 h2
    · rw [← h1, hep]
    · rw [← h1, List.getElem?_eq_none_iff]; omega
    · rfl
  · rw [if_neg hlt, if_neg hlt]
    change Spec.SameState (match (ep.accept (Spec.localTick ep.zone k)).2 with
      | some err => _
      | none => _ : World × Option PyErr).1 _
    rcases (ep.accept (Spec.localTick ep.zone k)).2 with _ | err
    · dsimp only
      set w0 : World := { w with
        epics := w.epics.set e (ep.accept (Spec.localTick ep.zone k)).1
        log := w.log ++ [.accepted e (Spec.localTick ep.zone k)] } with hw0
      obtain ⟨lg, h⟩ := execStrategies_quiet hs e ep.marketOpen (Spec.localTick ep.zone k).dt (ep.strategies.map Prod.snd)
        (w0.updateOpenTrades ep.provider (Spec.localTick ep.zone k))
      obtain ⟨r1, r2, r3, r4⟩ := updateOpenTrades_rest w0 ep.provider (Spec.localTick ep.zone k)
      change Spec.SameState (execStrategies env e ep.marketOpen (Spec.localTick ep.zone k).dt
        (w0.updateOpenTrades ep.provider (Spec.localTick ep.zone k)) (ep.strategies.map Prod.snd)).1 _
      rw [h]
      refine ⟨r1, ?_, r2, updateOpenTrades_only w0 w rfl rfl _ _⟩
      show wake _ _ _ = wake _ _ _
      rw [r3]
    · exact ⟨rfl, rfl, rfl, rfl⟩

theorem onNewTick_congr {env : Env} (hs : Spec.Silent env) {w w' : World} (h : Spec.SameState w w') (e : ℕ) (k : Tick) :
    Spec.SameState (w.onNewTick env e k).1 (w'.onNewTick env e k).1 := by
  rcases hep : w.epics[e]? with _ | ep
  · have hep' : w'.epics[e]? = none := by rw [← h.1]; exact hep
    unfold World.onNewTick
    rw [hep, hep']
    exact h
  · have hep' : w'.epics[e]? = some ep := by rw [← h.1]; exact hep
    refine (onNewTick_silent hs hep k).trans (.trans ?_ (onNewTick_silent hs hep' k).symm)
    refine ⟨by show w.epics.set _ _ = w'.epics.set _ _; rw [h.1], by show tickStrats _ _ _ = tickStrats _ _ _; rw [h.2.1], h.2.2.1, ?_⟩
    show tickTrades _ _ _ = tickTrades _ _ _
    cases (tickOut ep k).2 with
    | none => exact h.2.2.2
    | some k' => exact updateOpenTrades_only _ _ h.2.2.1 h.2.2.2 _ _

theorem updateOpenTrades_none {w : World} {p : ℕ} (h : w.providers[p]? = none) (k : Tick) : (w.updateOpenTrades p k) = w := by
  unfold World.updateOpenTrades
  rw [h]

theorem updateOpenTrades_comm_get {w : World} (hi : RegInv w) {p p' : ℕ} (hp : p ≠ p') {pr pr' : Provider}
    (hpr : w.providers[p]? = some pr) (hpr' : w.providers[p']? = some pr') (k k' : Tick) {u : World} (hu : RegInv u)
    (hu1 : u.providers = w.providers) (hu2 : u.trades = (w.updateOpenTrades p k).trades) (i : ℕ) :
    (u.updateOpenTrades p' k').trades[i]? = (w.trades[i]?).map (fun t =>
      if i ∈ pr.trades ∧ t.openedQty ≠ 0 then t.updateFromTick k
      else if i ∈ pr'.trades ∧ t.openedQty ≠ 0 then t.updateFromTick k' else t) := by
  rw [updateOpenTrades_get hu (by rw [hu1]; exact hpr'), hu2, updateOpenTrades_get hi hpr, Option.map_map]
  apply Option.map_congr
  intro t ht
  rw [Function.comp]
  by_cases h1 : i ∈ pr.trades
  · have h2 : i ∉ pr'.trades := by
      intro h2
      have a := hi.provOf i t p pr ht hpr h1
      have b := hi.provOf i t p' pr' ht hpr' h2
      rw [a] at b
      injection b with b
      exact hp b
    rw [if_neg (c := i ∈ pr'.trades ∧ _) (fun h => h2 h.1), if_neg (c := i ∈ pr'.trades ∧ _) (fun h => h2 h.1)]
  · rw [if_neg (c := i ∈ pr.trades ∧ _) (fun h => h1 h.1), if_neg (c := i ∈ pr.trades ∧ _) (fun h => h1 h.1)]

theorem updateOpenTrades_comm {w : World} (hi : RegInv w) {p p' : ℕ} (hp : p ≠ p') (k k' : Tick) {u u' : World}
    (hu : RegInv u) (hu1 : u.providers = w.providers) (hu2 : u.trades = (w.updateOpenTrades p k).trades)
    (hu' : RegInv u') (hu1' : u'.providers = w.providers) (hu2' : u'.trades = (w.updateOpenTrades p' k').trades) :
    (u.updateOpenTrades p' k').trades = (u'.updateOpenTrades p k).trades := by
  rcases hpr : w.providers[p]? with _ | pr
  · rw [updateOpenTrades_none (w := u') (by rw [hu1']; exact hpr), hu2']
    rw [updateOpenTrades_none hpr] at hu2
    exact updateOpenTrades_only _ _ hu1 hu2 _ _
  · rcases hpr' : w.providers[p']? with _ | pr'
    · rw [updateOpenTrades_none (w := u) (by rw [hu1]; exact hpr'), hu2]
      rw [updateOpenTrades_none hpr'] at hu2'
      exact (updateOpenTrades_only _ _ hu1' hu2' _ _).symm
    · apply List.ext_getElem?
      intro i
      rw [updateOpenTrades_comm_get hi hp hpr hpr' k k' hu hu1 hu2, updateOpenTrades_comm_get hi hp.symm hpr' hpr k' k hu' hu1' hu2']
      apply Option.map_congr
      intro t ht
      by_cases h1 : i ∈ pr.trades
      · have h2 : i ∉ pr'.trades := by
          intro h2
          have a := hi.provOf i t p pr ht hpr h1
          have b := hi.provOf i t p' pr' ht hpr' h2
          rw [a] at b
          injection b with b
          exact hp b
        rw [if_neg (c := i ∈ pr'.trades ∧ _) (fun h => h2 h.1), if_neg (c := i ∈ pr'.trades ∧ _) (fun h => h2 h.1)]
      · rw [if_neg (c := i ∈ pr.trades ∧ _) (fun h => h1 h.1), if_neg (c := i ∈ pr.trades ∧ _) (fun h => h1 h.1)]

theorem tick_regInv {env : Env} {w : World} (hi : RegInv w) (hok : EpicsOk w) (e : ℕ) (k : Tick) :
    RegInv (w.onNewTick env e k).1 ∧ EpicsOk (w.onNewTick env e k).1 := by
  have := runCmds_steps (V := False) (env := env) (fun v => v.elim) [.tick e k] w hok (fun v => v.elim)
  exact ⟨WSteps.inv (fun a b ha hb => hb.regInv ha) this hi, this.epicsOk hok⟩

theorem ticks_commute {env : Env} (hs : Spec.Silent env) {w : World} (hi : RegInv w) (hok : EpicsOk w) {e e' : ℕ} (he : e ≠ e')
    (hp : ∀ ep ep', w.epics[e]? = some ep → w.epics[e']? = some ep' → ep.provider ≠ ep'.provider) (k k' : Tick) :
    Spec.SameState ((w.onNewTick env e k).1.onNewTick env e' k').1 ((w.onNewTick env e' k').1.onNewTick env e k).1 := by
  have hno : ∀ (x : World) (j : ℕ) (c : Tick), x.epics[j]? = none → (x.onNewTick env j c).1 = x := by
    intro x j c h
    unfold World.onNewTick
    rw [h]
  rcases hep : w.epics[e]? with _ | ep
  · rw [hno w e k hep]
    rcases hep' : w.epics[e']? with _ | ep'
    · rw [hno w e' k' hep', hno w e k hep]
      exact .refl _
    · rw [hno _ e k]
      · exact .refl _
      · rw [(onNewTick_silent hs hep' k').1]
        show (w.epics.set _ _)[e]? = none
        rw [List.getElem?_set_ne he.symm]
        exact hep
  · rcases hep' : w.epics[e']? with _ | ep'
    · rw [hno w e' k' hep', hno _ e' k']
      · exact .refl _
      · rw [(onNewTick_silent hs hep k).1]
        show (w.epics.set _ _)[e']? = none
        rw [List.getElem?_set_ne he]
        exact hep'
    · have h1 := onNewTick_silent hs hep k
      have h2 := onNewTick_silent hs hep' k'
      have g1 : (w.onNewTick env e k).1.epics[e']? = some ep' := by
        rw [h1.1]
        show (w.epics.set _ _)[e']? = _
        rw [List.getElem?_set_ne he]
        exact hep'
      have g2 : (w.onNewTick env e' k').1.epics[e]? = some ep := by
        rw [h2.1]
        show (w.epics.set _ _)[e]? = _
        rw [List.getElem?_set_ne he.symm]
        exact hep
      have r1 := tick_regInv (env := env) hi hok e k
      have r2 := tick_regInv (env := env) hi hok e' k'
      have s1 := onNewTick_silent hs g1 k'
      have s2 := onNewTick_silent hs g2 k
      refine s1.trans (.trans ?_ s2.symm)
      refine ⟨?_, ?_, ?_, ?_⟩
      · show (w.onNewTick env e k).1.epics.set _ _ = (w.onNewTick env e' k').1.epics.set _ _
        rw [h1.1, h2.1]
        show (w.epics.set _ _).set _ _ = (w.epics.set _ _).set _ _
        rw [List.set_comm _ _ he]
      · show tickStrats _ (w.onNewTick env e k).1.strategies _ = tickStrats _ (w.onNewTick env e' k').1.strategies _
        rw [h1.2.1, h2.2.1]
        show tickStrats _ (tickStrats _ _ _) _ = tickStrats _ (tickStrats _ _ _) _
        rcases (tickOut ep k).2 with _ | a <;> rcases (tickOut ep' k').2 with _ | b
        · rfl
        · rfl
        · rfl
        · exact wake_comm _ _ _ _ _
      · show (w.onNewTick env e k).1.providers = (w.onNewTick env e' k').1.providers
        rw [h1.2.2.1, h2.2.2.1]
      · show tickTrades (w.onNewTick env e k).1 _ _ = tickTrades (w.onNewTick env e' k').1 _ _
        have t1 := h1.2.2.2
        have t2 := h2.2.2.2
        change _ = tickTrades w _ _ at t1 t2
        have q1 : (w.onNewTick env e k).1.providers = w.providers := h1.2.2.1
        have q2 : (w.onNewTick env e' k').1.providers = w.providers := h2.2.2.1
        rcases ha : (tickOut ep k).2 with _ | a <;> rcases hb : (tickOut ep' k').2 with _ | b <;> rw [ha] at t1 <;> rw [hb] at t2
        · exact t1.trans t2.symm
        · exact (updateOpenTrades_only _ _ q1 t1 _ _).trans t2.symm
        · exact t1.trans (updateOpenTrades_only _ _ q2 t2 _ _).symm
        · exact updateOpenTrades_comm hi (hp _ _ hep hep') a b r1.1 q1 t1 r2.1 q2 t2

/-! ## Any interleaving -/

/-- Each epic has a provider of its own (at least among the epics that get ticks). -/
def Apart (w : World) (l : List (ℕ × Tick)) : Prop := ∀ x ∈ l, ∀ y ∈ l, x.1 ≠ y.1 → ∀ ep ep', w.epics[x.1]? = some ep →
  w.epics[y.1]? = some ep' → ep.provider ≠ ep'.provider

theorem provider_kept {env : Env} (hs : Spec.Silent env) (w : World) (e : ℕ) (k : Tick) (j : ℕ) (ep' : Epic)
    (h : (w.onNewTick env e k).1.epics[j]? = some ep') : ∃ ep, w.epics[j]? = some ep ∧ ep.provider = ep'.provider := by
  rcases hep : w.epics[e]? with _ | ep
  · unfold World.onNewTick at h
    rw [hep] at h
    exact ⟨ep', h, rfl⟩
  · rw [(onNewTick_silent hs hep k).1] at h
    change (w.epics.set _ _)[j]? = _ at h
    rw [List.getElem?_set] at h
    split_ifs at h with h1 h2
    · subst h1
      injection h with h
      refine ⟨ep, hep, ?_⟩
      rw [← h]
      unfold tickOut
      split_ifs
      · rfl
      · rcases (ep.accept (Spec.localTick ep.zone k)).2 with _ | err <;> rfl
    · exact ⟨ep', h, rfl⟩

theorem Apart.tick {env : Env} (hs : Spec.Silent env) {w : World} {l : List (ℕ × Tick)} (h : Apart w l) (e : ℕ) (k : Tick) :
    Apart (w.onNewTick env e k).1 l := by
  intro x hx y hy hne ep ep' h1 h2
  obtain ⟨a, a1, a2⟩ := provider_kept hs w e k _ _ h1
  obtain ⟨b, b1, b2⟩ := provider_kept hs w e k _ _ h2
  rw [← a2, ← b2]
  exact h x hx y hy hne a b a1 b1

theorem deliver_congr {env : Env} (hs : Spec.Silent env) (l : List (ℕ × Tick)) {w w' : World} (h : Spec.SameState w w') :
    Spec.SameState (Spec.deliver env w l) (Spec.deliver env w' l) := by
  induction l generalizing w w' with
  | nil => exact h
  | cons x rest ih => exact ih (onNewTick_congr hs h x.1 x.2)

/-- A tick can be delivered before ticks of other epics. -/
theorem deliver_front {env : Env} (hs : Spec.Silent env) (x : ℕ × Tick) (pre post : List (ℕ × Tick)) {w : World} (hi : RegInv w)
    (hok : EpicsOk w) (hpre : ∀ y ∈ pre, y.1 ≠ x.1) (hap : Apart w (x :: pre)) :
    Spec.SameState (Spec.deliver env w (pre ++ x :: post)) (Spec.deliver env w (x :: (pre ++ post))) := by
  induction pre generalizing w with
  | nil => exact .refl _
  | cons y rest ih =>
    have hy := hpre y (by simp)
    have r := tick_regInv (env := env) hi hok y.1 y.2
    have h1 : Spec.SameState (Spec.deliver env w (y :: (rest ++ x :: post))) (Spec.deliver env w (y :: (x :: (rest ++ post)))) :=
      ih r.1 r.2 (fun z hz => hpre z (by simp [hz])) (by
        intro a ha b hb
        refine (hap.tick hs y.1 y.2) a ?_ b ?_
        · rcases List.mem_cons.mp ha with h | h <;> simp [h]
        · rcases List.mem_cons.mp hb with h | h <;> simp [h])
    refine h1.trans ?_
    exact deliver_congr hs (rest ++ post) (ticks_commute hs hi hok hy (fun ep ep' g1 g2 =>
      hap y (by simp) x (by simp) hy ep ep' g1 g2) y.2 x.2)

/-- C69: with strategies that do nothing and a provider for each epic, the state after some ticks (epics, frames, market states,
strategies, trades) depends only on the ticks of each epic in their order, not on how the ticks of different epics are interleaved. -/
theorem C69_interleaving {env env' : Env} {w : World} (hw : Reachable env w) (hs : Spec.Silent env')
    (hp : (w.epics.map Epic.provider).Nodup) (l l' : List (ℕ × Tick))
    (h : ∀ e, l.filter (fun x => x.1 = e) = l'.filter (fun x => x.1 = e)) :
    Spec.SameState (Spec.deliver env' w l) (Spec.deliver env' w l') := by
  have hap : ∀ l : List (ℕ × Tick), Apart w l := by
    intro l x _ y _ hne ep ep' h1 h2 heq
    apply hne
    exact epic_of_provider hp h1 h2 heq
  have hi := hw.regInv
  have hok := hw.epicsOk
  clear hw hp
  induction l generalizing w l' with
  | nil =>
    have : l' = [] := by
      rcases l' with _ | ⟨x, rest⟩
      · rfl
      · have := h x.1
        simp at this
    subst this
    exact .refl _
  | cons x rest ih =>
    have hx : x ∈ l' := by
      have : x ∈ l'.filter (fun y => y.1 = x.1) := by rw [← h]; simp
      exact List.mem_of_mem_filter this
    obtain ⟨pre, y, post, hy, hpre, rfl⟩ : ∃ pre y post, y.1 = x.1 ∧ (∀ z ∈ pre, z.1 ≠ x.1) ∧ l' = pre ++ y :: post := by
      clear h ih
      induction l' with
      | nil => cases hx
      | cons a r ihr =>
        by_cases ha : a.1 = x.1
        · exact ⟨[], a, r, ha, by simp, rfl⟩
        · rcases List.mem_cons.mp hx with hx | hx
          · exact absurd (by rw [hx]) ha
          · obtain ⟨pre, y, post, h1, h2, rfl⟩ := ihr hx
            refine ⟨a :: pre, y, post, h1, ?_, rfl⟩
            intro z hz
            rcases List.mem_cons.mp hz with rfl | hz
            · exact ha
            · exact h2 z hz
    have hnil : ∀ (e : ℕ), e = x.1 → pre.filter (fun z => z.1 = e) = [] := by
      rintro e rfl
      rw [List.filter_eq_nil_iff]
      intro z hz
      simp [hpre z hz]
    have hxy : y = x := by
      have := h x.1
      rw [List.filter_append, hnil _ rfl, List.filter_cons_of_pos (by simp), List.filter_cons_of_pos (by simp [hy])] at this
      injection this with this
      exact this.symm
    subst hxy
    have r := tick_regInv (env := env') hi hok y.1 y.2
    refine .trans ?_ (deliver_front hs y pre post hi hok hpre (hap _)).symm
    refine ih (pre ++ post) ?_ (fun l => (hap l).tick hs y.1 y.2) r.1 r.2
    intro e
    have := h e
    rw [List.filter_append] at this ⊢
    by_cases he : e = y.1
    · rw [hnil e he, List.filter_cons_of_pos (by simp [he]), List.filter_cons_of_pos (by simp [he])] at this
      rw [hnil e he]
      injection this
    · rw [List.filter_cons_of_neg (by simpa using Ne.symm he), List.filter_cons_of_neg (by simpa using Ne.symm he)] at this
      exact this

end

/-- Two epics, each on a provider of its own. -/
def Demo.apart : World := { Demo.world with
  epics := [Epic.new "E0" Zone.utc (8 * hourUs) (16 * hourUs) [] [] 0, Epic.new "E1" Zone.utc 0 (23 * hourUs) [] [] 1]
  providers := [Provider.new .backtests, Provider.new .custom] }

theorem Demo.apart_init : Demo.apart.Init := by
  refine ⟨?_, Demo.world_init.strategies, ?_, rfl, rfl⟩
  · intro e he
    simp only [Demo.apart, List.mem_cons, List.not_mem_nil, or_false] at he
    rcases he with rfl | rfl
    · exact ⟨_, _, _, _, _, _, 0, by decide, rfl⟩
    · exact ⟨_, _, _, _, _, _, 1, by decide, rfl⟩
  · intro p hp
    simp only [Demo.apart, List.mem_cons, List.not_mem_nil, or_false] at hp
    rcases hp with rfl | rfl
    · exact ⟨_, rfl⟩
    · exact ⟨_, rfl⟩

/-- Frames, a paused strategy on both epics, a trade on each epic. -/
def Demo.apartScript : List Cmd := [.addFrameSet 0 "UT1" Demo.minutes, .addStrategy 0 0, .addStrategy 1 0,
  .tick 0 (Demo.tk 480 10 12), .tick 1 (Demo.tk 480 30 32), .op (.openTrade 0 (some 0) (some .buy) 3),
  .op (.openTrade 1 (some 0) (some .sell) 2), .op (.pause 0 (some (Demo.tk 482 0 0).dt))]

/-- Two interleavings of three ticks of the first and two of the second epic. -/
def Demo.order1 : List (ℕ × Tick) := [(0, Demo.tk 481 20 22), (1, Demo.tk 481 40 42), (0, Demo.tk 482 5 7), (1, Demo.tk 485 33 35),
  (0, Demo.tk 486 15 17)]
def Demo.order2 : List (ℕ × Tick) := [(1, Demo.tk 481 40 42), (1, Demo.tk 485 33 35), (0, Demo.tk 481 20 22), (0, Demo.tk 482 5 7),
  (0, Demo.tk 486 15 17)]

/-- Concrete case of C69 and its hypotheses. -/
example : letI := Arith.exact
    let w := Demo.apart.runCmds Demo.quiet Demo.apartScript
    Reachable Demo.quiet w ∧ Spec.Silent Demo.quiet ∧ (w.epics.map Epic.provider).Nodup ∧
    ∀ e, Demo.order1.filter (fun x => x.1 = e) = Demo.order2.filter (fun x => x.1 = e) := by
  letI := Arith.exact
  refine ⟨⟨_, Demo.apart_init, _, rfl⟩, fun _ _ _ _ => rfl, by decide +kernel, ?_⟩
  intro e
  rcases e with _ | _ | e
  · rfl
  · rfl
  · simp [Demo.order1, Demo.order2]

example : letI := Arith.exact
    let w := Demo.apart.runCmds Demo.quiet Demo.apartScript
    let w1 := Spec.deliver Demo.quiet w Demo.order1
    let w2 := Spec.deliver Demo.quiet w Demo.order2
    w1.trades.map Trade.curClose = [15, 35] ∧ w1.trades.map Trade.maxRes = [24, -4] ∧ w1.trades = w2.trades ∧
    (w1.epics.map fun ep => (ep.lastTick, ep.marketOpen)) = (w2.epics.map fun ep => (ep.lastTick, ep.marketOpen)) := by decide +kernel

example : letI := Arith.exact
    let w := Demo.apart.runCmds Demo.quiet Demo.apartScript
    let w1 := Spec.deliver Demo.quiet w Demo.order1
    let w2 := Spec.deliver Demo.quiet w Demo.order2
    (w.strategies.map fun s => s.pausedUntil.isSome) = [true, false] ∧ (w1.strategies.map fun s => s.pausedUntil.isSome) = [false, false] ∧
    (w1.epics.map fun ep => (ep.frameSets.map fun fs => fs.2.frames.length)) = [[7], []] ∧
    (w1.epics.map fun ep => ep.frameSets) = (w2.epics.map fun ep => ep.frameSets) := by
  decide +kernel

/-- The order is visible in the notifications: the strategy paused until 08:02 is told about the tick of 08:01 of the first epic if the tick
of 08:05 of the second comes before it. -/
theorem C69_notifications_differ : letI := Arith.exact
    let w := Demo.apart.runCmds Demo.quiet Demo.apartScript
    (Spec.deliver Demo.quiet w Demo.order1).log.count (.notify 0 0 .everyTick) = 3 ∧
    (Spec.deliver Demo.quiet w Demo.order2).log.count (.notify 0 0 .everyTick) = 4 := by decide +kernel

/-- C69 needs a provider for each epic: two epics on one provider, whose ticks revalue each other's trades. -/
theorem C69_shared_provider : letI := Arith.exact
    let w := Demo.world.runCmds Demo.quiet [.tick 0 (Demo.tk 480 10 12), .op (.openTrade 0 (some 0) (some .buy) 1)]
    (Spec.deliver Demo.quiet w [(0, Demo.tk 481 20 22), (1, Demo.tk 481 40 42)]).trades.map Trade.result = [28] ∧
    (Spec.deliver Demo.quiet w [(1, Demo.tk 481 40 42), (0, Demo.tk 481 20 22)]).trades.map Trade.result = [8] := by decide +kernel

end Estrade
