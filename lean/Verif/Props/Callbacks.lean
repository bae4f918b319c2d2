import Verif.Lemmas.Switches
import Verif.Props.Portfolio

/-!
# C18-C20: strategy callbacks
-/

set_option linter.style.haveILetI false
set_option linter.unusedSectionVars false
set_option autoImplicit false

namespace Estrade

section
variable [Arith]

/-! ## C18 -/

/-- Spec: everything a tick tells the strategies `l` (with a flag each: is it active): each active one in turn gets its
notifications. -/
def Spec.told (e : ℕ) (before now : Bool) (l : List (ℕ × Bool)) : List Event :=
  l.flatMap (fun p => if p.2 then (Spec.notifications before now).map (Event.notify p.1 e) else [])

theorem told_eq (e : ℕ) (before now : Bool) (l : List (ℕ × Bool)) :
    l.flatMap (fun p => if p.2 then notifyBlock p.1 e before now else []) = Spec.told e before now l := by
  unfold Spec.told
  congr 1
  funext p
  rw [notifyBlock_eq]

theorem marketOpen_accept {w1 w : World} {e : ℕ} {ep : Epic} {k : Tick} (hep : w.epics[e]? = some ep)
    (h : w1.epics = w.epics.set e (ep.accept k).1) : w1.marketOpen e = decide (Spec.Open ep k.dt.wall) := by
  have h1 : w1.marketOpen e = (ep.accept k).1.marketOpen := by
    unfold World.marketOpen
    rw [h, List.getElem?_set, if_pos rfl, if_pos (getElem?_lt hep)]
  rw [h1]
  have := accept_open ep k
  by_cases ho : Spec.Open ep k.dt.wall
  · rw [this.mpr ho]; simp [ho]
  · have hf : (ep.accept k).1.marketOpen = false := by
      rw [Bool.eq_false_iff]; exact fun hc => ho (this.mp hc)
    rw [hf]; simp [ho]

/-- C18: a tick that raises nothing: the callbacks run in a state `w1` in which frames and open trades are updated; every
registered strategy, in registration order, gets exactly the notifications due if it is active when its turn comes
(`turn … i`: after the turns of the strategies before it), else nothing. -/
theorem C18_callbacks {env : Env} {w : World} (hw : Reachable env w) {e : ℕ} {ep : Epic} {k : Tick}
    (hep : w.epics[e]? = some ep) {pr : Provider} (hpr : w.providers[ep.provider]? = some pr) (env' : Env)
    (hok : (w.onNewTick env' e k).2 = none) :
    let k' := Spec.localTick ep.zone k
    let l := ep.strategies.map Prod.snd
    ∃ (w1 : World) (acts : List Bool), acts.length = l.length ∧
      w1.epics = w.epics.set e (ep.accept k').1 ∧
      (∀ (i : ℕ) (t : Trade), w.trades[i]? = some t → w1.trades[i]? =
        some (if i ∈ pr.trades ∧ Spec.IsOpen t then Spec.repriced t k' else t)) ∧
      (w.onNewTick env' e k).1 = (execStrategies env' e ep.marketOpen k'.dt w1 l).1 ∧
      (w.onNewTick env' e k).1.log = w.log ++ .accepted e k' ::
        Spec.told e ep.marketOpen (decide (Spec.Open ep k'.dt.wall)) (l.zip acts) ∧
      ∀ (i : ℕ) s, l[i]? = some s → ∃ st, (turn env' e ep.marketOpen k'.dt w1 l i).strategies[s]? = some st ∧
        (acts[i]? = some true ↔ Spec.Active st k'.dt) := by
  intro k' l
  obtain ⟨h1, h2⟩ := onNewTick_ok_cases hep hok
  obtain ⟨w1, g1, g2, g3, -, -, -, g4⟩ := C29_before_callbacks hw hep hpr env' h1 h2
  rw [g1] at hok ⊢
  obtain ⟨acts, a1, a2, a3⟩ := execStrategies_log env' e ep.marketOpen k'.dt l w1 hok
  refine ⟨w1, acts, a1, g2, g4, rfl, ?_, a3⟩
  rw [a2, g3, told_eq, marketOpen_accept hep g2, List.append_assoc]
  rfl

/-- Spec: callbacks that assign neither `stopped` nor `paused_until` of any strategy. -/
def Spec.LeavesSwitches (env : Env) : Prop :=
  ∀ s cb e w, (env s cb e w).All (fun o => (∀ s b, o ≠ .stop s b) ∧ ∀ s d, o ≠ .pause s d)

theorem active_congr {st st' : Strategy} (h1 : st'.stopped = st.stopped) (h2 : st'.pausedUntil = st.pausedUntil)
    (dt : DT) : Spec.Active st' dt ↔ Spec.Active st dt := by
  unfold Spec.Active; rw [h1, h2]

theorem isActive_active (st : Strategy) (dt : DT) : Spec.Active (st.isActive dt).2 dt ↔ Spec.Active st dt := by
  unfold Strategy.isActive
  split_ifs with h
  · rfl
  · split
    · rfl
    · rename_i p hp
      split_ifs with h2
      · rfl
      · unfold Spec.Active
        simp only [hp]
        simp [h2]

theorem leaves_keeps {env : Env} (h : Spec.LeavesSwitches env) (s : ℕ) (dt : DT) (b : Prop) :
    Keeps env s (fun st => Spec.Active st dt ↔ b) := fun s' cb e w hw =>
  prog_keeps (Q := fun o => (∀ s b, o ≠ .stop s b) ∧ ∀ s d, o ≠ .pause s d)
    (fun _ _ _ hq hs hst => (active_congr (hs.stopped (hq.1 s)) (hs.paused (hq.2 s)) dt).trans hst)
    _ (h s' cb e w) w hw

/-- C18 when the callbacks do not switch strategies on or off: the active strategies are those active when the tick
arrives. -/
theorem C18_callbacks_static {env : Env} {w : World} (hw : Reachable env w) {e : ℕ} {ep : Epic} {k : Tick}
    (hep : w.epics[e]? = some ep) {env' : Env} (henv : Spec.LeavesSwitches env')
    (hok : (w.onNewTick env' e k).2 = none) (active : ℕ → Bool)
    (hact : ∀ s st, w.strategies[s]? = some st →
      (active s = true ↔ Spec.Active st (Spec.localTick ep.zone k).dt)) :
    (w.onNewTick env' e k).1.log = w.log ++ .accepted e (Spec.localTick ep.zone k) ::
      Spec.told e ep.marketOpen (decide (Spec.Open ep (Spec.localTick ep.zone k).dt.wall))
        (ep.strategies.map (fun p => (p.2, active p.2))) := by
  obtain ⟨h1, h2⟩ := onNewTick_ok_cases hep hok
  obtain ⟨pr, hpr⟩ := epic_provider hw hep
  obtain ⟨w1, g1, g2, g3, g4, -, -, -⟩ := C29_before_callbacks hw hep hpr env' h1 h2
  rw [g1] at hok ⊢
  obtain ⟨acts, a1, a2, a3⟩ := execStrategies_log env' e ep.marketOpen (Spec.localTick ep.zone k).dt
    (ep.strategies.map Prod.snd) w1 hok
  rw [a2, g3, told_eq, marketOpen_accept hep g2, List.append_assoc]
  suffices hz : (ep.strategies.map Prod.snd).zip acts = ep.strategies.map (fun p => (p.2, active p.2)) by
    rw [hz]; rfl
  have hacts : acts = ep.strategies.map (fun p => active p.2) := by
    apply List.ext_getElem?
    intro i
    rw [List.getElem?_map]
    rcases hi : ep.strategies[i]? with _ | p
    · rw [List.getElem?_eq_none]
      · rfl
      · rw [a1, List.length_map]; exact List.getElem?_eq_none_iff.mp hi
    · obtain ⟨st', b1, b2⟩ := a3 i p.2 (by rw [List.getElem?_map, hi]; rfl)
      have hb : ∃ st, w1.strategies[p.2]? = some st := by
        obtain ⟨st, hst, -⟩ := hw.registered.1 ep (List.mem_of_getElem? hep) p (List.mem_of_getElem? hi)
        exact ⟨st, by rw [g4]; exact hst⟩
      obtain ⟨st, hst⟩ := hb
      obtain ⟨st'', c1, c2⟩ := execStrategies_keeps (leaves_keeps henv p.2 (Spec.localTick ep.zone k).dt
        (Spec.Active st (Spec.localTick ep.zone k).dt)) (fun x hx => (isActive_active x _).trans hx)
        ((ep.strategies.map Prod.snd).take i) w1 ⟨st, hst, Iff.rfl⟩ e ep.marketOpen
      change (turn env' e ep.marketOpen _ w1 _ i).strategies[p.2]? = some st'' at c1
      rw [b1] at c1; injection c1 with c1; subst c1
      have hlt : i < acts.length := by
        rw [a1, List.length_map]; exact getElem?_lt hi
      have hx := hact p.2 st (by rw [← g4]; exact hst)
      rw [List.getElem?_eq_getElem hlt] at b2 ⊢
      simp only [Option.map_some, Option.some.injEq] at b2 ⊢
      rw [Bool.eq_iff_iff, b2, c2, hx]
  rw [hacts, List.zip_map']

theorem execStrategies_prefix (env : Env) (e : ℕ) (before : Bool) (dt : DT) (l : List ℕ) (w : World) :
    ∃ acts : List Bool, acts.length = l.length ∧ ∃ L, (execStrategies env e before dt w l).1.log = w.log ++ L ∧
      L <+: Spec.told e before (w.marketOpen e) (l.zip acts) := by
  induction l generalizing w with
  | nil => exact ⟨[], rfl, [], by simp [execStrategies], List.nil_prefix⟩
  | cons s rest ih =>
    unfold execStrategies
    obtain ⟨h1, L, h2, h3, h4, h5⟩ := execStrategy_log env w e s before dt
    rcases andThen_cases (w.execStrategy env e s before dt) (fun w => execStrategies env e before dt w rest)
      with ⟨hn, h⟩ | ⟨-, h⟩
    · rw [h]
      obtain ⟨acts, a1, L', a2, a3⟩ := ih (w.execStrategy env e s before dt).1
      rw [marketOpen_congr h1] at a3
      obtain ⟨st, hst⟩ : ∃ st, w.strategies[s]? = some st := by
        rcases hs : w.strategies[s]? with _ | st
        · unfold World.execStrategy at hn
          rw [hs] at hn
          cases hn
        · exact ⟨st, rfl⟩
      by_cases ha : Spec.Active st dt
      · refine ⟨true :: acts, by simp [a1], L ++ L', by rw [a2, h2, List.append_assoc], ?_⟩
        rw [h5 st hst ha hn, notifyBlock_eq]
        unfold Spec.told at a3 ⊢
        rw [List.zip_cons_cons, List.flatMap_cons]
        exact List.prefix_append_right_inj _ |>.mpr a3
      · refine ⟨false :: acts, by simp [a1], L ++ L', by rw [a2, h2, List.append_assoc], ?_⟩
        rw [(h4 st hst ha).1]
        unfold Spec.told at a3 ⊢
        rw [List.zip_cons_cons, List.flatMap_cons]
        exact a3
    · rw [h]
      refine ⟨true :: List.replicate rest.length true, by simp, L, h2, ?_⟩
      unfold Spec.told
      rw [List.zip_cons_cons, List.flatMap_cons]
      rw [notifyBlock_eq] at h3
      exact h3.trans (List.prefix_append _ _)

/-- C18 when something raises: a rejected tick tells nobody anything; otherwise nothing is told but a beginning of what
is due (for some set of active strategies), in order. -/
theorem C18_nothing_else (env : Env) (w : World) (e : ℕ) (ep : Epic) (k : Tick) (hep : w.epics[e]? = some ep) :
    (w.onNewTick env e k).1.log = w.log ∨
    ∃ (acts : List Bool) (L : List Event), acts.length = ep.strategies.length ∧
      (w.onNewTick env e k).1.log = w.log ++ .accepted e (Spec.localTick ep.zone k) :: L ∧
      L <+: Spec.told e ep.marketOpen (decide (Spec.Open ep (Spec.localTick ep.zone k).dt.wall))
        ((ep.strategies.map Prod.snd).zip acts) := by
  rcases onNewTick_cases env w e k with ⟨h, -⟩ | ⟨ep', h1, -, -, h⟩ | ⟨ep', w1, h1, -, h, g2, g3, -⟩
  · left; rw [h]
  · right
    rw [hep] at h1; injection h1 with h1; subst h1
    refine ⟨List.replicate ep.strategies.length true, [], by simp, by rw [h], List.nil_prefix⟩
  · right
    rw [hep] at h1; injection h1 with h1; subst h1
    obtain ⟨acts, a1, L, a2, a3⟩ := execStrategies_prefix env e ep.marketOpen (Spec.localTick ep.zone k).dt
      (ep.strategies.map Prod.snd) w1
    rw [marketOpen_accept hep g2] at a3
    refine ⟨acts, L, by rw [a1, List.length_map], ?_, a3⟩
    rw [h, a2, g3, List.append_assoc]; rfl

/-! ## C19 -/

/-- Spec: alternation.  `Session b l`: `l` is a sequence of callbacks as it may follow when the market was last announced
open (`b`) or closed (`¬ b`, the start). -/
def Spec.Session : Bool → List Cb → Prop
  | _, [] => True
  | false, .marketOpen :: l => Spec.Session true l
  | true, .marketClose :: l => Spec.Session false l
  | true, .everyTickOpen :: l => Spec.Session true l
  | b, .everyTick :: l => Spec.Session b l
  | _, _ => False

theorem session_notifications (b now : Bool) (l : List Cb) :
    Spec.Session b (Spec.notifications b now ++ l) ↔ Spec.Session now l := by
  cases b <;> cases now <;> simp [Spec.notifications, Spec.Session]

/-- Spec: callbacks that assign neither `stopped` nor `paused_until` of strategy `s`. -/
def Spec.Untouched (env : Env) (s : ℕ) : Prop :=
  ∀ s' cb e w, (env s' cb e w).All (fun o => (∀ b, o ≠ .stop s b) ∧ ∀ d, o ≠ .pause s d)

/-- Spec: commands that assign neither. -/
def Spec.UntouchedBy (l : List Cmd) (s : ℕ) : Prop :=
  ∀ c ∈ l, (∀ b, c ≠ .op (.stop s b)) ∧ ∀ d, c ≠ .op (.pause s d)

/-- Neither stopped nor paused. -/
def Free (st : Strategy) : Prop := st.stopped = false ∧ st.pausedUntil = none

theorem Free.active {st : Strategy} (h : Free st) (dt : DT) : Spec.Active st dt :=
  ⟨h.1, fun p hp => by rw [h.2] at hp; cases hp⟩

theorem Free.isActive {st : Strategy} (h : Free st) (dt : DT) : Free (st.isActive dt).2 := by
  unfold Strategy.isActive
  rw [h.1, h.2]
  exact h

/-- A property of the two switches. -/
def OfSwitches (P : Strategy → Prop) : Prop :=
  ∀ st st', st'.stopped = st.stopped → st'.pausedUntil = st.pausedUntil → P st → P st'

theorem Spec.Untouched.keeps {env : Env} {s : ℕ} (h : Spec.Untouched env s) {P : Strategy → Prop}
    (hP : OfSwitches P) : Keeps env s P := fun s' cb e w hw =>
  prog_keeps (Q := fun o => (∀ b, o ≠ .stop s b) ∧ ∀ d, o ≠ .pause s d)
    (fun _ st st' hq hs hst => hP st st' (hs.stopped hq.1) (hs.paused hq.2) hst) _ (h s' cb e w) w hw

theorem free_switches : OfSwitches Free := fun _ _ h1 h2 h => ⟨h1.trans h.1, h2.trans h.2⟩

theorem exec_nontick_keeps (env : Env) (w : World) (c : Cmd) (hc : ∀ e t, c ≠ .tick e t) {s : ℕ}
    (hu : (∀ b, c ≠ .op (.stop s b)) ∧ ∀ d, c ≠ .op (.pause s d)) {P : Strategy → Prop} (hP : OfSwitches P)
    (hw : StratP w s P) : StratP (w.exec env c).1 s P := by
  obtain ⟨st, h1, h2⟩ := hw
  by_cases ho : ∃ o, c = .op o
  · obtain ⟨o, rfl⟩ := ho
    obtain ⟨st', h3, h4⟩ := step_switched w o s st h1
    exact ⟨st', h3, hP _ _ (h4.stopped (fun b hb => hu.1 b (by rw [hb])))
      (h4.paused (fun d hd => hu.2 d (by rw [hd]))) h2⟩
  · push Not at ho
    obtain ⟨st', h3, h4, h5, -⟩ := exec_switched env w c s st h1 hc ho
    exact ⟨st', h3, hP _ _ h4 h5 h2⟩

theorem Reachable.exec {env : Env} {w : World} (h : Reachable env w) (c : Cmd) : Reachable env (w.exec env c).1 := by
  obtain ⟨w0, h0, l, rfl⟩ := h
  exact ⟨w0, h0, l ++ [c], by rw [runCmds_append]; rfl⟩

theorem Reachable.run {env : Env} {w : World} (h : Reachable env w) (l : List Cmd) :
    Reachable env (w.runCmds env l) := by
  obtain ⟨w0, h0, l0, rfl⟩ := h
  exact ⟨w0, h0, l0 ++ l, by rw [runCmds_append]⟩

theorem exec_log (env : Env) (w : World) (c : Cmd) : ∃ L, (w.exec env c).1.log = w.log ++ L ∧
    (L = [] ∨ ∃ e k N, c = .tick e k ∧ ∃ ep, w.epics[e]? = some ep ∧
      (Spec.localTick ep.zone k).dt.lt ep.lastTick.dt = false ∧
      L = .accepted e (Spec.localTick ep.zone k) :: N ∧
      ∀ ev ∈ N, ∃ s ∈ ep.strategies.map Prod.snd, ∃ cb, ev = .notify s e cb) := by
  by_cases hc : ∃ e t, c = .tick e t
  · obtain ⟨e, k, rfl⟩ := hc
    rcases onNewTick_cases env w e k with ⟨h, -⟩ | ⟨ep, h1, h2, -, h⟩ | ⟨ep, w1, h1, h2, h, -, g3, -⟩
    · exact ⟨[], by rw [show (w.exec env (.tick e k)).1 = w from h]; simp, .inl rfl⟩
    · exact ⟨_, by rw [show (w.exec env (.tick e k)).1 = _ from h],
        .inr ⟨e, k, [], rfl, ep, h1, h2, rfl, by simp⟩⟩
    · obtain ⟨-, L, g4, g5⟩ := execStrategies_epics env e ep.marketOpen (Spec.localTick ep.zone k).dt
        (ep.strategies.map Prod.snd) w1
      refine ⟨.accepted e (Spec.localTick ep.zone k) :: L, ?_, .inr ⟨e, k, L, rfl, ep, h1, h2, rfl, g5⟩⟩
      show (w.onNewTick env e k).1.log = _
      rw [h, g4, g3, List.append_assoc]; rfl
  · push Not at hc
    exact ⟨[], by rw [(exec_other env w c hc).1]; simp, .inl rfl⟩

theorem runCmds_log (env : Env) (l : List Cmd) (w : World) : ∃ L, (w.runCmds env l).log = w.log ++ L := by
  induction l generalizing w with
  | nil => exact ⟨[], by simp [World.runCmds]⟩
  | cons c l ih =>
    obtain ⟨L, h, -⟩ := exec_log env w c
    obtain ⟨L', h'⟩ := ih (w.exec env c).1
    exact ⟨L ++ L', by rw [runCmds_cons, h', h, List.append_assoc]⟩

/-- Registered strategies stay registered. -/
theorem exec_regs_mono (env : Env) (w : World) (c : Cmd) (e : ℕ) (ep : Epic) (h : w.epics[e]? = some ep) :
    ∃ ep', (w.exec env c).1.epics[e]? = some ep' ∧ ep'.zone = ep.zone ∧
      ∀ s ∈ ep.strategies.map Prod.snd, s ∈ ep'.strategies.map Prod.snd := by
  have hlen : (w.exec env c).1.epics.length = w.epics.length := by
    by_cases hc : ∃ e t, c = .tick e t
    · obtain ⟨e0, k, rfl⟩ := hc
      rcases tick_effect env w e0 k with ⟨g, -⟩ | ⟨x, -, -, g, -⟩
      · rw [g]
      · rw [g]; simp
    · push Not at hc
      exact (exec_other env w c hc).2.1
  have hlt : e < (w.exec env c).1.epics.length := by rw [hlen]; exact getElem?_lt h
  refine ⟨_, List.getElem?_eq_getElem hlt, ?_⟩
  obtain ⟨x, h1, h2, h3⟩ := exec_regs env w c e _ (List.getElem?_eq_getElem hlt)
  rw [h] at h1; injection h1 with h1; subst h1
  refine ⟨h2, fun s hs => ?_⟩
  rcases h3 with h3 | ⟨s', st, -, -, -, h3⟩
  · rw [h3]; exact hs
  · rw [h3, List.map_append]; exact List.mem_append_left _ hs

theorem run_regs_mono (env : Env) (l : List Cmd) (w : World) (e : ℕ) (ep : Epic) (h : w.epics[e]? = some ep) :
    ∃ ep', (w.runCmds env l).epics[e]? = some ep' ∧ ep'.zone = ep.zone ∧
      ∀ s ∈ ep.strategies.map Prod.snd, s ∈ ep'.strategies.map Prod.snd := by
  induction l generalizing w ep with
  | nil => exact ⟨ep, h, rfl, fun _ h => h⟩
  | cons c l ih =>
    obtain ⟨ep1, h1, h2, h3⟩ := exec_regs_mono env w c e ep h
    obtain ⟨ep2, h4, h5, h6⟩ := ih _ ep1 h1
    exact ⟨ep2, h4, h5.trans h2, fun s hs => h6 s (h3 s hs)⟩

theorem heard_other (s e : ℕ) (L : List Event) (h : ∀ ev ∈ L, ∀ cb, ev ≠ .notify s e cb) :
    Spec.heard s e L = [] := by
  unfold Spec.heard
  rw [List.filterMap_eq_nil_iff]
  intro ev hev
  cases ev with
  | accepted e' k => rfl
  | notify s' e' cb =>
    simp only [ite_eq_right_iff, reduceCtorEq, imp_false]
    rintro ⟨rfl, rfl⟩
    exact h _ hev cb rfl

theorem filter_self {l : List ℕ} (hn : l.Nodup) {s : ℕ} (hs : s ∈ l) : l.filter (fun x => decide (x = s)) = [s] := by
  induction l with
  | nil => cases hs
  | cons a l ih =>
    rw [List.nodup_cons] at hn
    rw [List.filter_cons]
    by_cases h : a = s
    · subst h
      have : l.filter (fun x => decide (x = a)) = [] := by
        rw [List.filter_eq_nil_iff]
        intro x hx
        simp only [decide_eq_true_eq]
        rintro rfl; exact hn.1 hx
      simp [this]
    · simp only [h, decide_false, Bool.false_eq_true, if_false]
      exact ih hn.2 (by simpa [Ne.symm h] using hs)

/-- A registered strategy that stays active hears exactly the notifications due. -/
theorem tick_heard {env : Env} {w : World} (hw : Reachable env w) {e s : ℕ} {ep : Epic} {k : Tick}
    (hep : w.epics[e]? = some ep) (hs : s ∈ ep.strategies.map Prod.snd) {env' : Env} {P : Strategy → Prop}
    (hk : Keeps env' s P) (hP : ∀ st, P st → Spec.Active st (Spec.localTick ep.zone k).dt)
    (hP' : ∀ st, P st → P (st.isActive (Spec.localTick ep.zone k).dt).2) (hst : StratP w s P)
    (hok : (w.onNewTick env' e k).2 = none) :
    ∃ L, (w.onNewTick env' e k).1.log = w.log ++ L ∧ (∀ e', e' ≠ e → Spec.heard s e' L = []) ∧
      Spec.heard s e L = Spec.notifications ep.marketOpen
        (decide (Spec.Open ep (Spec.localTick ep.zone k).dt.wall)) := by
  rcases onNewTick_cases env' w e k with ⟨-, h, -⟩ | ⟨ep', -, -, h, -⟩ | ⟨ep', w1, h1, h2, h, g2, g3, g4⟩
  · exact absurd hok h
  · exact absurd hok h
  · rw [hep] at h1; injection h1 with h1; subst h1
    rw [h] at hok ⊢
    obtain ⟨L, a1, a2, a3⟩ := execStrategies_active hk hP hP' (ep.strategies.map Prod.snd) w1
      (by unfold StratP; rw [g4]; exact hst) e ep.marketOpen hok
    refine ⟨.accepted e (Spec.localTick ep.zone k) :: L, by rw [a1, g3, List.append_assoc]; rfl, ?_, ?_⟩
    · intro e' he'; exact a2 e' he'
    · show Spec.heard s e L = _
      rw [a3, filter_self (hw.registered.2 ep (List.mem_of_getElem? hep)) hs, marketOpen_accept hep g2]
      simp

theorem tick_keeps {env' : Env} {s : ℕ} {P : Strategy → Prop} (hk : Keeps env' s P) {w : World} {e : ℕ} {k : Tick}
    (hP' : ∀ ep, w.epics[e]? = some ep → ∀ st, P st → P (st.isActive (Spec.localTick ep.zone k).dt).2)
    (hst : StratP w s P) : StratP (w.onNewTick env' e k).1 s P := by
  rcases onNewTick_cases env' w e k with ⟨h, -⟩ | ⟨ep', -, -, -, h⟩ | ⟨ep', w1, h1, h2, h, g2, g3, g4⟩
  · rw [h]; exact hst
  · rw [h]; exact hst
  · rw [h]
    exact execStrategies_keeps hk (hP' ep' h1) _ w1 (by unfold StratP; rw [g4]; exact hst) _ _

/-- Spec: no accepted tick of epic `e` raises anything in the run. -/
def Spec.NoRaise (env : Env) (w : World) (e : ℕ) (l : List Cmd) : Prop :=
  ∀ l1 k l2, l = l1 ++ .tick e k :: l2 → ∀ ep, (w.runCmds env l1).epics[e]? = some ep →
    (Spec.localTick ep.zone k).dt.lt ep.lastTick.dt = false → ((w.runCmds env l1).onNewTick env e k).2 = none

/-- C19 as stated: any behaviour of the other strategies, exceptions included. -/
def Spec.C19 : Prop :=
  ∀ (env : Env) (w : World), Reachable env w → ∀ (e s : ℕ) (ep : Epic) (st : Strategy), w.epics[e]? = some ep →
    w.strategies[s]? = some st → s ∈ ep.strategies.map Prod.snd → ep.marketOpen = false →
    st.stopped = false → st.pausedUntil = none → Spec.Untouched env s → ∀ l, Spec.UntouchedBy l s →
    ∀ L, (w.runCmds env l).log = w.log ++ L → Spec.Session false (Spec.heard s e L)

theorem session_run (env : Env) (e s : ℕ) (henv : Spec.Untouched env s) (l : List Cmd) : ∀ (w : World),
    Reachable env w → ∀ ep, w.epics[e]? = some ep → s ∈ ep.strategies.map Prod.snd → StratP w s Free →
    Spec.UntouchedBy l s → Spec.NoRaise env w e l → ∃ L, (w.runCmds env l).log = w.log ++ L ∧
      Spec.Session ep.marketOpen (Spec.heard s e L) := by
  have hk : Keeps env s Free := henv.keeps free_switches
  induction l with
  | nil => intro w _ ep _ _ _ _ _; exact ⟨[], by simp [World.runCmds], by simp [Spec.heard, Spec.Session]⟩
  | cons c l ih =>
    intro w hw ep hep hs hf hu hn
    have hu' : Spec.UntouchedBy l s := fun c hc => hu c (List.mem_cons_of_mem _ hc)
    have hn' : Spec.NoRaise env (w.exec env c).1 e l := by
      intro l1 k l2 hl ep' h1 h2
      exact hn (c :: l1) k l2 (by rw [hl]; rfl) ep' h1 h2
    obtain ⟨ep', g1, -, g2⟩ := exec_regs_mono env w c e ep hep
    by_cases hc : ∃ e t, c = .tick e t
    · obtain ⟨e0, k, rfl⟩ := hc
      have hf' : StratP (w.exec env (.tick e0 k)).1 s Free :=
        tick_keeps hk (fun _ _ st hst => hst.isActive _) hf
      obtain ⟨L', b1, b2⟩ := ih _ (hw.exec _) ep' g1 (g2 s hs) hf' hu' hn'
      by_cases he : e0 = e
      · subst he
        rcases hacc : (Spec.localTick ep.zone k).dt.lt ep.lastTick.dt with _ | _
        · have hok := hn [] k l rfl ep hep hacc
          change (w.onNewTick env e0 k).2 = none at hok
          obtain ⟨L, a1, -, a3⟩ := tick_heard hw hep hs hk (fun _ h => h.active _) (fun _ h => h.isActive _) hf hok
          refine ⟨L ++ L', by rw [runCmds_cons, b1, show (w.exec env (.tick e0 k)).1.log = _ from a1,
            List.append_assoc], ?_⟩
          rw [heard_append, a3, session_notifications]
          have : ep'.marketOpen = decide (Spec.Open ep (Spec.localTick ep.zone k).dt.wall) := by
            rcases tick_effect env w e0 k with ⟨-, h⟩ | ⟨x, h1, -, h2, -⟩
            · have := h ep hep
              change (Spec.localTick ep.zone k).dt.lt ep.lastTick.dt = true at this
              rw [this] at hacc; cases hacc
            · rw [hep] at h1; injection h1 with h1; subst h1
              have := marketOpen_accept (k := Spec.localTick ep.zone k) hep h2
              unfold World.marketOpen at this
              rw [g1] at this
              exact this
          rw [← this]; exact b2
        · have hrej : w.exec env (.tick e0 k) = (w, some .epic) := onNewTick_rejected env w e0 k ep hep hacc
          rw [hrej] at b1 g1
          rw [hep] at g1; injection g1 with g1; subst g1
          exact ⟨L', by rw [runCmds_cons, hrej]; exact b1, b2⟩
      · obtain ⟨L, a1, a2⟩ := exec_log env w (.tick e0 k)
        refine ⟨L ++ L', by rw [runCmds_cons, b1, a1, List.append_assoc], ?_⟩
        have hL : Spec.heard s e L = [] := by
          apply heard_other
          rcases a2 with rfl | ⟨e1, k1, N, hc, x, -, -, rfl, hN⟩
          · simp
          · injection hc with h1 h2; subst h1
            intro ev hev cb
            rcases List.mem_cons.mp hev with rfl | hev
            · simp
            · obtain ⟨s', -, cb', rfl⟩ := hN ev hev
              simp only [ne_eq, Event.notify.injEq, not_and]
              intro _ h; exact absurd h he
        rw [heard_append, hL]
        have : ep'.marketOpen = ep.marketOpen := by
          rcases tick_effect env w e0 k with ⟨h, -⟩ | ⟨x, h1, -, h2, -⟩
          · rw [h, hep] at g1; injection g1 with g1; rw [g1]
          · rw [h2, List.getElem?_set, if_neg he, hep] at g1; injection g1 with g1; rw [g1]
        rw [← this]; exact b2
    · push Not at hc
      obtain ⟨h1, -, h2⟩ := exec_other env w c hc
      obtain ⟨x, x1, x2⟩ := h2 e ep hep
      rw [g1] at x1; injection x1 with x1; subst x1
      obtain ⟨L', b1, b2⟩ := ih _ (hw.exec _) ep' g1 (g2 s hs)
        (exec_nontick_keeps env w c hc (hu c (by simp)) free_switches hf) hu' hn'
      exact ⟨L', by rw [runCmds_cons, b1, h1], by rw [← x2.flag]; exact b2⟩

/-- C19 when no tick of the epic raises.  Missing for the full statement: exceptions raised by another strategy or a
frame set during a tick, which can swallow an announcement (`C19_false`). -/
theorem C19_alternation_partial {env : Env} {w : World} (hw : Reachable env w) {e s : ℕ} {ep : Epic} {st : Strategy}
    (hep : w.epics[e]? = some ep) (hst : w.strategies[s]? = some st) (hs : s ∈ ep.strategies.map Prod.snd)
    (hclosed : ep.marketOpen = false) (h1 : st.stopped = false) (h2 : st.pausedUntil = none)
    (henv : Spec.Untouched env s) (l : List Cmd) (hu : Spec.UntouchedBy l s) (hn : Spec.NoRaise env w e l)
    (L : List Event) (hL : (w.runCmds env l).log = w.log ++ L) : Spec.Session false (Spec.heard s e L) := by
  obtain ⟨L', a1, a2⟩ := session_run env e s henv l w hw ep hep hs ⟨st, hst, h1, h2⟩ hu hn
  rw [hL] at a1
  have := List.append_cancel_left a1
  rw [this, ← hclosed]; exact a2

/-! ## C20 -/

/-- C20, stopped: a stopped strategy is called by no tick of any epic in any run, as long as nobody assigns `stopped`
(its pause may be changed at will); it stays stopped. -/
theorem C20_stopped_never_called (env : Env) (s : ℕ)
    (henv : ∀ s' cb e w, (env s' cb e w).All (fun o => ∀ b, o ≠ .stop s b)) (l : List Cmd) : ∀ (w : World),
    (∀ b, Cmd.op (.stop s b) ∉ l) → (∃ st, w.strategies[s]? = some st ∧ st.stopped = true) →
    (∃ st, (w.runCmds env l).strategies[s]? = some st ∧ st.stopped = true) ∧
    ∃ L, (w.runCmds env l).log = w.log ++ L ∧ ∀ e cb, Event.notify s e cb ∉ L := by
  have hk : Keeps env s (fun st => st.stopped = true) := fun s' cb e w hw =>
    prog_keeps (Q := fun o => ∀ b, o ≠ .stop s b) (fun _ _ _ hq hs hst => (hs.stopped hq).trans hst) _
      (henv s' cb e w) w hw
  have hn : ∀ L, (∀ e, Spec.heard s e L = []) → ∀ e cb, Event.notify s e cb ∉ L := by
    intro L hL e cb hm
    have := hL e
    unfold Spec.heard at this
    rw [List.filterMap_eq_nil_iff] at this
    have := this _ hm
    simp at this
  induction l with
  | nil => intro w _ h; exact ⟨h, [], by simp [World.runCmds], by simp⟩
  | cons c l ih =>
    intro w hl h
    have hl' : ∀ b, Cmd.op (.stop s b) ∉ l := fun b hb => hl b (List.mem_cons_of_mem _ hb)
    suffices hc : StratP (w.exec env c).1 s (fun st => st.stopped = true) ∧
        ∃ L, (w.exec env c).1.log = w.log ++ L ∧ ∀ e cb, Event.notify s e cb ∉ L by
      obtain ⟨h1, L, h2, h3⟩ := hc
      obtain ⟨i1, L', i2, i3⟩ := ih _ hl' h1
      refine ⟨i1, L ++ L', by rw [runCmds_cons, i2, h2, List.append_assoc], fun e cb hm => ?_⟩
      rcases List.mem_append.mp hm with hm | hm
      · exact h3 e cb hm
      · exact i3 e cb hm
    by_cases hc : ∃ e t, c = .tick e t
    · obtain ⟨e, k, rfl⟩ := hc
      rcases onNewTick_cases env w e k with ⟨g, -⟩ | ⟨ep', -, -, -, g⟩ | ⟨ep', w1, h1, h2, g, g2, g3, g4⟩
      · rw [show w.exec env (.tick e k) = w.onNewTick env e k from rfl, g]
        exact ⟨h, [], by simp, by simp⟩
      · rw [show w.exec env (.tick e k) = w.onNewTick env e k from rfl, g]
        exact ⟨h, _, rfl, by simp⟩
      · rw [show w.exec env (.tick e k) = w.onNewTick env e k from rfl, g]
        obtain ⟨b1, L, b2, b3⟩ := execStrategies_blocked hk (dt := (Spec.localTick ep'.zone k).dt)
          (fun st hst ha => by rw [ha.1] at hst; cases hst) (ep'.strategies.map Prod.snd) w1
          (by unfold StratP; rw [g4]; exact h) e ep'.marketOpen
        refine ⟨b1, .accepted e (Spec.localTick ep'.zone k) :: L, by rw [b2, g3, List.append_assoc]; rfl, ?_⟩
        intro e' cb hm
        rcases List.mem_cons.mp hm with hm | hm
        · cases hm
        · exact hn L b3 e' cb hm
    · push Not at hc
      refine ⟨?_, [], by rw [(exec_other env w c hc).1]; simp, by simp⟩
      obtain ⟨st, h1, h2⟩ := h
      by_cases ho : ∃ o, c = .op o
      · obtain ⟨o, rfl⟩ := ho
        obtain ⟨st', h3, h4⟩ := step_switched w o s st h1
        exact ⟨st', h3, (h4.stopped (fun b hb => hl b (by rw [hb]; simp))).trans h2⟩
      · push Not at ho
        obtain ⟨st', h3, h4, -⟩ := exec_switched env w c s st h1 hc ho
        exact ⟨st', h3, h4.trans h2⟩

/-- Spec: the tick being processed at each call of strategy `s` (`cur`: the tick before the log starts). -/
def Spec.calledAt (s : ℕ) : Option Tick → List Event → List (Option Tick)
  | _, [] => []
  | _, .accepted _ k :: l => Spec.calledAt s (some k) l
  | cur, .notify s' _ _ :: l => if s' = s then cur :: Spec.calledAt s cur l else Spec.calledAt s cur l

/-- C20 as stated, for a strategy paused until `T` (nobody assigning its switches afterwards). -/
def Spec.C20 : Prop :=
  ∀ (env : Env) (w : World), Reachable env w → ∀ (s : ℕ) (st : Strategy) (T : DT), w.strategies[s]? = some st →
    st.stopped = false → st.pausedUntil = some T → Spec.Untouched env s → ∀ l, Spec.UntouchedBy l s →
    ∀ L, (w.runCmds env l).log = w.log ++ L →
    ∀ c ∈ Spec.calledAt s none L, ∃ k, c = some k ∧ k.dt.lt T = false

/-- Not stopped, paused until `T`. -/
def PausedTo (T : DT) (st : Strategy) : Prop := st.stopped = false ∧ st.pausedUntil = some T

theorem paused_switches (T : DT) : OfSwitches (PausedTo T) := fun _ _ h1 h2 h => ⟨h1.trans h.1, h2.trans h.2⟩

theorem PausedTo.not_active {T : DT} {st : Strategy} (h : PausedTo T st) {dt : DT} (hdt : dt.lt T = true) :
    ¬ Spec.Active st dt := fun ha => by
  have := ha.2 T h.2; rw [hdt] at this; cases this

theorem PausedTo.active {T : DT} {st : Strategy} (h : PausedTo T st) {dt : DT} (hdt : dt.lt T = false) :
    Spec.Active st dt := ⟨h.1, fun p hp => by rw [h.2] at hp; injection hp with hp; rw [← hp]; exact hdt⟩

theorem PausedTo.isActive {T : DT} {st : Strategy} (h : PausedTo T st) (dt : DT) :
    (dt.lt T = true → (st.isActive dt).2 = st) ∧ (dt.lt T = false → Free (st.isActive dt).2) := by
  unfold Strategy.isActive
  rw [h.1, h.2]
  constructor
  · intro hd; simp [hd]
  · intro hd; simp [hd, Free]

/-- Turns of strategies other than `s`. -/
theorem execStrategies_absent {env : Env} {s : ℕ} {P : Strategy → Prop} (hk : Keeps env s P) (dt : DT) (l : List ℕ)
    (hs : s ∉ l) (w : World) (hw : StratP w s P) (e : ℕ) (b : Bool) :
    StratP (execStrategies env e b dt w l).1 s P := by
  induction l generalizing w with
  | nil => exact hw
  | cons s' rest ih =>
    rw [List.mem_cons, not_or] at hs
    unfold execStrategies
    refine andThen_keeps ?_ (fun w hw => ih hs.2 w hw)
    unfold World.execStrategy
    rcases h : w.strategies[s']? with _ | st'
    · exact hw
    · simp only
      have : StratP { w with strategies := w.strategies.set s' (st'.isActive dt).2 } s P := by
        obtain ⟨st, h1, h2⟩ := hw
        exact ⟨st, by simp only [List.getElem?_set]; rw [if_neg (Ne.symm hs.1)]; exact h1, h2⟩
      split_ifs
      · exact notifyAll_keeps hk _ this e s' b
      · exact this

/-- After the turn of a paused strategy with a tick not before `T` its pause is gone. -/
theorem execStrategies_clears {env : Env} {s : ℕ} {T : DT} (henv : Spec.Untouched env s) {dt : DT}
    (hdt : dt.lt T = false) (l : List ℕ) (w : World) (hw : StratP w s (PausedTo T)) (hs : s ∈ l) (e : ℕ) (b : Bool)
    (hok : (execStrategies env e b dt w l).2 = none) : StratP (execStrategies env e b dt w l).1 s Free := by
  have hkF : Keeps env s Free := henv.keeps free_switches
  have hkP : Keeps env s (PausedTo T) := henv.keeps (paused_switches T)
  induction l generalizing w with
  | nil => cases hs
  | cons s' rest ih =>
    unfold execStrategies at hok ⊢
    rcases andThen_cases (w.execStrategy env e s' b dt) (fun w => execStrategies env e b dt w rest)
      with ⟨hn, h⟩ | ⟨hne, h⟩
    · rw [h] at hok ⊢
      by_cases hss : s' = s
      · subst hss
        refine execStrategies_keeps hkF (fun _ h => h.isActive dt) rest _ ?_ e b
        obtain ⟨st, h1, h2⟩ := hw
        unfold World.execStrategy
        rw [h1]
        simp only
        have : StratP { w with strategies := w.strategies.set s' (st.isActive dt).2 } s' Free :=
          ⟨_, by simp [getElem?_lt h1], (h2.isActive dt).2 hdt⟩
        split_ifs
        · exact notifyAll_keeps hkF _ this e s' b
        · exact this
      · have h' := execStrategies_absent hkP dt [s'] (by simpa using Ne.symm hss) w hw e b
        have h'' : (execStrategies env e b dt w [s']).1 = (w.execStrategy env e s' b dt).1 := by
          unfold execStrategies execStrategies
          rcases andThen_cases (w.execStrategy env e s' b dt) (fun w => ((w, none) : World × Option PyErr))
            with ⟨-, g⟩ | ⟨-, g⟩ <;> rw [g]
        rw [h''] at h'
        exact ih _ h' (by simpa [Ne.symm hss] using hs) hok
    · rw [h] at hok; exact absurd hok hne

/-- One tick, for a strategy paused until `T`, whatever is raised: before `T` nothing is heard and the pause stays; later
it is paused or free. -/
theorem tick_paused {env : Env} {s : ℕ} {T : DT} (henv : Spec.Untouched env s) {w : World} {e : ℕ} {k : Tick} {ep : Epic}
    (hep : w.epics[e]? = some ep) (hw : StratP w s (PausedTo T)) :
    (s ∉ ep.strategies.map Prod.snd → StratP (w.onNewTick env e k).1 s (PausedTo T)) ∧
    ((Spec.localTick ep.zone k).dt.lt T = true → StratP (w.onNewTick env e k).1 s (PausedTo T) ∧
      ∃ L, (w.onNewTick env e k).1.log = w.log ++ L ∧ ∀ e', Spec.heard s e' L = []) ∧
    (StratP (w.onNewTick env e k).1 s (PausedTo T) ∨ StratP (w.onNewTick env e k).1 s Free) := by
  have hkP : Keeps env s (PausedTo T) := henv.keeps (paused_switches T)
  have hkF : Keeps env s (fun st => PausedTo T st ∨ Free st) := henv.keeps (fun st st' h1 h2 h =>
    h.imp (paused_switches T st st' h1 h2) (free_switches st st' h1 h2))
  have hor : StratP (w.onNewTick env e k).1 s (fun st => PausedTo T st ∨ Free st) := by
    refine tick_keeps hkF (fun ep _ st hst => ?_) (by obtain ⟨st, h1, h2⟩ := hw; exact ⟨st, h1, .inl h2⟩)
    rcases hst with hst | hst
    · rcases hd : (Spec.localTick ep.zone k).dt.lt T with _ | _
      · exact .inr ((hst.isActive _).2 hd)
      · rw [(hst.isActive _).1 hd]; exact .inl hst
    · exact .inr (hst.isActive _)
  have hor' : StratP (w.onNewTick env e k).1 s (PausedTo T) ∨ StratP (w.onNewTick env e k).1 s Free := by
    obtain ⟨st, h1, h2⟩ := hor
    exact h2.imp (fun h => ⟨st, h1, h⟩) (fun h => ⟨st, h1, h⟩)
  rcases onNewTick_cases env w e k with ⟨g, -⟩ | ⟨ep', -, -, -, g⟩ | ⟨ep', w1, h1, h2, g, g2, g3, g4⟩
  · refine ⟨fun _ => by rw [g]; exact hw, fun _ => ?_, hor'⟩
    rw [g]; exact ⟨hw, [], by simp, fun _ => rfl⟩
  · refine ⟨fun _ => by rw [g]; exact hw, fun _ => ?_, hor'⟩
    rw [g]; exact ⟨hw, _, rfl, fun _ => rfl⟩
  · rw [hep] at h1; injection h1 with h1; subst h1
    have hw1 : StratP w1 s (PausedTo T) := by unfold StratP; rw [g4]; exact hw
    refine ⟨fun hs => ?_, fun hd => ?_, hor'⟩
    · rw [g]; exact execStrategies_absent hkP _ _ hs w1 hw1 _ _
    · rw [g]
      obtain ⟨b1, L, b2, b3⟩ := execStrategies_blocked hkP (fun st hst => hst.not_active hd)
        (ep.strategies.map Prod.snd) w1 hw1 e ep.marketOpen
      exact ⟨b1, .accepted e (Spec.localTick ep.zone k) :: L, by rw [b2, g3, List.append_assoc]; rfl, b3⟩

/-- A run in which every tick of an epic of the strategy comes before `T`. -/
theorem paused_run {env : Env} {s : ℕ} {T : DT} (henv : Spec.Untouched env s) (l : List Cmd) : ∀ (w : World),
    Spec.UntouchedBy l s → StratP w s (PausedTo T) →
    (∀ L, (w.runCmds env l).log = w.log ++ L → ∀ e k, Event.accepted e k ∈ L →
      ∀ ep, (w.runCmds env l).epics[e]? = some ep → s ∈ ep.strategies.map Prod.snd → k.dt.lt T = true) →
    StratP (w.runCmds env l) s (PausedTo T) ∧
    ∃ L, (w.runCmds env l).log = w.log ++ L ∧ ∀ e, Spec.heard s e L = [] := by
  induction l with
  | nil => intro w _ h _; exact ⟨h, [], by simp [World.runCmds], fun _ => rfl⟩
  | cons c l ih =>
    intro w hu h hT
    have hu' : Spec.UntouchedBy l s := fun c hc => hu c (List.mem_cons_of_mem _ hc)
    obtain ⟨L1, a1, a2⟩ := exec_log env w c
    obtain ⟨L2, b1⟩ := runCmds_log env l (w.exec env c).1
    have hall : (w.runCmds env (c :: l)).log = w.log ++ (L1 ++ L2) := by
      rw [runCmds_cons, b1, a1, List.append_assoc]
    have hT' : ∀ L, ((w.exec env c).1.runCmds env l).log = (w.exec env c).1.log ++ L → ∀ e k,
        Event.accepted e k ∈ L → ∀ ep, ((w.exec env c).1.runCmds env l).epics[e]? = some ep →
        s ∈ ep.strategies.map Prod.snd → k.dt.lt T = true := by
      intro L hL e k hm ep hep hs
      rw [b1] at hL
      have := List.append_cancel_left hL
      subst this
      exact hT _ hall e k (List.mem_append_right _ hm) ep hep hs
    suffices hc : StratP (w.exec env c).1 s (PausedTo T) ∧ ∀ e, Spec.heard s e L1 = [] by
      obtain ⟨i1, L', i2, i3⟩ := ih _ hu' hc.1 hT'
      rw [b1] at i2
      have := List.append_cancel_left i2
      subst this
      exact ⟨i1, L1 ++ L2, hall, fun e => by rw [heard_append, hc.2, i3]; rfl⟩
    by_cases hc : ∃ e t, c = .tick e t
    · obtain ⟨e, k, rfl⟩ := hc
      rcases hep : w.epics[e]? with _ | ep
      · have : w.exec env (.tick e k) = (w, some .attr) := by
          simp only [World.exec, World.onNewTick, hep]
        rw [this] at a1 ⊢
        have : L1 = [] := by simpa using a1
        rw [this]; exact ⟨h, fun _ => rfl⟩
      · obtain ⟨t1, t2, -⟩ := tick_paused (k := k) henv hep h
        rcases a2 with rfl | ⟨e1, k1, N, hc, x, x1, x2, rfl, hN⟩
        · refine ⟨?_, fun _ => rfl⟩
          rcases onNewTick_cases env w e k with ⟨g, -⟩ | ⟨ep', -, -, -, g⟩ | ⟨ep', w1, h1, h2, g, g2, g3, g4⟩
          · rw [show w.exec env (.tick e k) = w.onNewTick env e k from rfl, g]; exact h
          · rw [show w.exec env (.tick e k) = w.onNewTick env e k from rfl, g] at a1
            simp at a1
          · exfalso
            obtain ⟨-, L, c1, -⟩ := execStrategies_epics env e ep'.marketOpen (Spec.localTick ep'.zone k).dt
              (ep'.strategies.map Prod.snd) w1
            rw [show w.exec env (.tick e k) = w.onNewTick env e k from rfl, g, c1, g3] at a1
            simp at a1
        · injection hc with h1 h2; subst h1; subst h2
          rw [hep] at x1; injection x1 with x1; subst x1
          by_cases hs : s ∈ ep.strategies.map Prod.snd
          · obtain ⟨ep', r1, -, r2⟩ := run_regs_mono env (.tick e k :: l) w e ep hep
            have hd := hT _ hall e (Spec.localTick ep.zone k) (List.mem_append_left _ List.mem_cons_self) ep' r1 (r2 s hs)
            obtain ⟨y1, L, y2, y3⟩ := t2 hd
            refine ⟨y1, fun e' => ?_⟩
            rw [show (w.exec env (.tick e k)).1.log = _ from y2] at a1
            have := List.append_cancel_left a1
            rw [← this]; exact y3 e'
          · refine ⟨t1 hs, fun e' => heard_other s e' _ ?_⟩
            intro ev hev cb
            rcases List.mem_cons.mp hev with rfl | hev
            · simp
            · obtain ⟨s', hs', cb', rfl⟩ := hN ev hev
              simp only [ne_eq, Event.notify.injEq, not_and]
              rintro rfl; exact absurd hs' hs
    · push Not at hc
      refine ⟨exec_nontick_keeps env w c hc (hu c (by simp)) (paused_switches T) h, ?_⟩
      have : L1 = [] := by
        have := (exec_other env w c hc).1
        rw [this] at a1; simpa using a1
      rw [this]; exact fun _ => rfl

/-- A free strategy stays free. -/
theorem free_run {env : Env} {s : ℕ} (henv : Spec.Untouched env s) (l : List Cmd) : ∀ (w : World),
    Spec.UntouchedBy l s → StratP w s Free → StratP (w.runCmds env l) s Free := by
  induction l with
  | nil => intro w _ h; exact h
  | cons c l ih =>
    intro w hu h
    refine ih _ (fun c hc => hu c (List.mem_cons_of_mem _ hc)) ?_
    by_cases hc : ∃ e t, c = .tick e t
    · obtain ⟨e, k, rfl⟩ := hc
      exact tick_keeps (henv.keeps free_switches) (fun _ _ _ hst => hst.isActive _) h
    · push Not at hc
      exact exec_nontick_keeps env w c hc (hu c (by simp)) free_switches h

/-- C20, paused: nothing is heard until the first tick not before `T` of an epic of the strategy; that tick (if it does
not raise) calls it normally and clears the pause; from then on every such tick of any of its epics calls it.
Missing for the full statement: a tick before `T` of another epic, after the pause was cleared (`C20_false`). -/
theorem C20_pause_partial {env : Env} {w : World} (hw : Reachable env w) {s : ℕ} {st : Strategy} {T : DT}
    (hst : w.strategies[s]? = some st) (h1 : st.stopped = false) (h2 : st.pausedUntil = some T)
    (henv : Spec.Untouched env s) (l : List Cmd) (e : ℕ) (k : Tick) (hu : Spec.UntouchedBy l s)
    (hbefore : ∀ L, (w.runCmds env l).log = w.log ++ L → ∀ e' k', Event.accepted e' k' ∈ L →
      ∀ ep', (w.runCmds env l).epics[e']? = some ep' → s ∈ ep'.strategies.map Prod.snd → k'.dt.lt T = true)
    {ep : Epic} (hep : (w.runCmds env l).epics[e]? = some ep) (hs : s ∈ ep.strategies.map Prod.snd)
    (hT : (Spec.localTick ep.zone k).dt.lt T = false) (hok : ((w.runCmds env l).onNewTick env e k).2 = none) :
    let w1 := w.runCmds env l
    let w2 := (w1.onNewTick env e k).1
    (∃ L, w1.log = w.log ++ L ∧ ∀ e', Spec.heard s e' L = []) ∧
    (∃ st1, w1.strategies[s]? = some st1 ∧ st1.pausedUntil = some T) ∧
    (∃ L, w2.log = w1.log ++ L ∧ Spec.heard s e L =
      Spec.notifications ep.marketOpen (decide (Spec.Open ep (Spec.localTick ep.zone k).dt.wall))) ∧
    (∃ st2, w2.strategies[s]? = some st2 ∧ st2.pausedUntil = none) ∧
    ∀ l', Spec.UntouchedBy l' s → ∀ e' k' ep', (w2.runCmds env l').epics[e']? = some ep' →
      s ∈ ep'.strategies.map Prod.snd → ((w2.runCmds env l').onNewTick env e' k').2 = none →
      ∃ L, ((w2.runCmds env l').onNewTick env e' k').1.log = (w2.runCmds env l').log ++ L ∧
        Spec.heard s e' L =
          Spec.notifications ep'.marketOpen (decide (Spec.Open ep' (Spec.localTick ep'.zone k').dt.wall)) := by
  intro w1 w2
  obtain ⟨p1, p2⟩ := paused_run henv l w hu ⟨st, hst, h1, h2⟩ hbefore
  have hw1 : Reachable env w1 := hw.run l
  have hkPF : Keeps env s (fun st => PausedTo T st ∨ Free st) := henv.keeps (fun st st' h1 h2 h =>
    h.imp (paused_switches T st st' h1 h2) (free_switches st st' h1 h2))
  have hpf : StratP w1 s (fun st => PausedTo T st ∨ Free st) := by
    obtain ⟨x, x1, x2⟩ := p1; exact ⟨x, x1, .inl x2⟩
  obtain ⟨L, c1, -, c2⟩ := tick_heard hw1 hep hs hkPF
    (fun x hx => hx.elim (fun h => h.active hT) (fun h => h.active _))
    (fun x hx => .inr (hx.elim (fun h => (h.isActive _).2 hT) (fun h => h.isActive _))) hpf hok
  have hfree : StratP w2 s Free := by
    rcases onNewTick_cases env w1 e k with ⟨-, g, -⟩ | ⟨ep', -, -, g, -⟩ | ⟨ep', u, g1, g2, g, -, -, g4⟩
    · exact absurd hok g
    · exact absurd hok g
    · have g1' : (w.runCmds env l).epics[e]? = some ep' := g1
      rw [hep] at g1'; injection g1' with g1'; subst g1'
      have hok' := hok
      change (w1.onNewTick env e k).2 = none at hok'
      rw [g] at hok'
      show StratP (w1.onNewTick env e k).1 s Free
      rw [g]
      exact execStrategies_clears henv hT _ u (by unfold StratP; rw [g4]; exact p1) hs _ _ hok'
  refine ⟨p2, ?_, ⟨L, c1, c2⟩, ?_, ?_⟩
  · obtain ⟨x, x1, x2⟩ := p1; exact ⟨x, x1, x2.2⟩
  · obtain ⟨x, x1, x2⟩ := hfree; exact ⟨x, x1, x2.2⟩
  · intro l' hu' e' k' ep' hep' hs' hok'
    have hf := free_run henv l' w2 hu' hfree
    have hw2 : Reachable env (w2.runCmds env l') := (hw1.exec (.tick e k)).run l'
    obtain ⟨L, d1, -, d2⟩ := tick_heard hw2 hep' hs' (henv.keeps free_switches) (fun _ h => h.active _)
      (fun _ h => h.isActive _) hf hok'
    exact ⟨L, d1, d2⟩

theorem calledAt_notifies (s : ℕ) (cur : Option Tick) (N L : List Event) (hN : ∀ ev ∈ N, ∃ s' e cb, ev = .notify s' e cb) :
    Spec.calledAt s cur (N ++ L) = Spec.calledAt s cur N ++ Spec.calledAt s cur L ∧
    ∀ c ∈ Spec.calledAt s cur N, c = cur ∧ ∃ e cb, Event.notify s e cb ∈ N := by
  induction N with
  | nil => simp [Spec.calledAt]
  | cons ev N ih =>
    obtain ⟨s', e, cb, rfl⟩ := hN ev (by simp)
    obtain ⟨h1, h2⟩ := ih (fun ev hev => hN ev (List.mem_cons_of_mem _ hev))
    simp only [List.cons_append, Spec.calledAt]
    by_cases hs : s' = s
    · subst hs
      simp only [if_true]
      refine ⟨by rw [h1]; rfl, fun c hc => ?_⟩
      rcases List.mem_cons.mp hc with rfl | hc
      · exact ⟨rfl, e, cb, by simp⟩
      · obtain ⟨a, e', cb', b⟩ := h2 c hc
        exact ⟨a, e', cb', List.mem_cons_of_mem _ b⟩
    · simp only [hs, if_false]
      refine ⟨h1, fun c hc => ?_⟩
      obtain ⟨a, e', cb', b⟩ := h2 c hc
      exact ⟨a, e', cb', List.mem_cons_of_mem _ b⟩

theorem not_lt_trans {a b T : DT} (h1 : a.tz = T.tz) (h2 : b.tz = T.tz) (hb : b.lt T = false)
    (hab : a.lt b = false) : a.lt T = false := by
  unfold DT.lt at hb hab ⊢
  rw [if_pos h2] at hb
  rw [if_pos (h1.trans h2.symm)] at hab
  rw [if_pos h1]
  simp only [decide_eq_false_iff_not, not_lt] at *
  omega

theorem single_run {env : Env} {s e : ℕ} {T : DT} (henv : Spec.Untouched env s) (l : List Cmd) : ∀ (w : World),
    Spec.UntouchedBy l s →
    (∀ ep, w.epics[e]? = some ep → ep.zone.id = T.tz) →
    (∀ e' ep', e' ≠ e → (w.runCmds env l).epics[e']? = some ep' → s ∉ ep'.strategies.map Prod.snd) →
    (StratP w s (PausedTo T) ∨ (StratP w s Free ∧ ∃ ep, w.epics[e]? = some ep ∧ ep.lastTick.dt.tz = T.tz ∧
      ep.lastTick.dt.lt T = false)) →
    ∀ L, (w.runCmds env l).log = w.log ++ L → ∀ cur, ∀ c ∈ Spec.calledAt s cur L, ∃ k, c = some k ∧ k.dt.lt T = false := by
  induction l with
  | nil =>
    intro w _ _ _ _ L hL cur c hc
    have : L = [] := by simpa [World.runCmds] using hL
    subst this; simp [Spec.calledAt] at hc
  | cons c l ih =>
    intro w hu hz hs hP L hL cur
    have hu' : Spec.UntouchedBy l s := fun c hc => hu c (List.mem_cons_of_mem _ hc)
    obtain ⟨L1, a1, a2⟩ := exec_log env w c
    obtain ⟨L2, b1⟩ := runCmds_log env l (w.exec env c).1
    have hLL : L = L1 ++ L2 := by
      have hall : (w.runCmds env (c :: l)).log = w.log ++ (L1 ++ L2) := by
        rw [runCmds_cons, b1, a1, List.append_assoc]
      rw [hL] at hall
      exact List.append_cancel_left hall
    have hz' : ∀ ep, (w.exec env c).1.epics[e]? = some ep → ep.zone.id = T.tz := by
      intro ep hep
      obtain ⟨x, h1, h2, -⟩ := exec_regs env w c e ep hep
      rw [h2]; exact hz x h1
    have ih' := fun hP' => ih _ hu' hz' hs hP' L2 b1
    have hno : ∀ e' ep', e' ≠ e → w.epics[e']? = some ep' → s ∉ ep'.strategies.map Prod.snd := by
      intro e' ep' hne hep' hm
      obtain ⟨y, r1, -, r2⟩ := run_regs_mono env (c :: l) w e' ep' hep'
      exact hs e' y hne r1 (r2 s hm)
    by_cases hc : ∃ e t, c = .tick e t
    · obtain ⟨e1, k, rfl⟩ := hc
      rcases tick_effect env w e1 k with ⟨g, g0⟩ | ⟨ep, g1, g2, g3, -⟩
      · rw [g] at a1 ih'
        have : L1 = [] := by simpa using a1
        rw [hLL, this]
        exact ih' hP cur
      · rcases a2 with rfl | ⟨e1', k', N, hc, x, x1, x2, rfl, hN⟩
        · exfalso
          rcases onNewTick_cases env w e1 k with ⟨-, -, g⟩ | ⟨ep', -, -, -, g⟩ | ⟨ep', w1, -, h2, g, -, g4, -⟩
          · have := g ep g1
            rw [show (Spec.localTick ep.zone k).dt = k.dt.to ep.zone from rfl, g2] at this
            cases this
          · rw [show w.exec env (.tick e1 k) = w.onNewTick env e1 k from rfl, g] at a1
            simp at a1
          · obtain ⟨-, N, c1, -⟩ := execStrategies_epics env e1 ep'.marketOpen (Spec.localTick ep'.zone k).dt
              (ep'.strategies.map Prod.snd) w1
            rw [show w.exec env (.tick e1 k) = w.onNewTick env e1 k from rfl, g, c1, g4] at a1
            simp at a1
        · injection hc with h1 h2; subst h1; subst h2
          rw [g1] at x1; injection x1 with x1; subst x1
          have hN' : ∀ ev ∈ N, ∃ s' e cb, ev = .notify s' e cb := fun ev hev => by
            obtain ⟨s', -, cb, h⟩ := hN ev hev; exact ⟨s', _, cb, h⟩
          set k' := Spec.localTick ep.zone k with hk'
          obtain ⟨d1, d2⟩ := calledAt_notifies s (some k') N L2 hN'
          rw [hLL, List.cons_append]
          simp only [Spec.calledAt]
          rw [d1]
          have hkF : Keeps env s Free := henv.keeps free_switches
          by_cases he : e1 = e
          · subst he
            have hlast : ∃ ep', (w.exec env (.tick e1 k)).1.epics[e1]? = some ep' ∧ ep'.lastTick = k' :=
              ⟨(ep.accept k').1, by rw [g3, List.getElem?_set, if_pos rfl, if_pos (getElem?_lt g1)]; rfl, rfl⟩
            have hktz : k'.dt.tz = T.tz := hz ep g1
            rcases hd : k'.dt.lt T with _ | _
            · have hP' : StratP (w.exec env (.tick e1 k)).1 s (PausedTo T) ∨
                  StratP (w.exec env (.tick e1 k)).1 s Free := by
                rcases hP with hP | ⟨hP, -⟩
                · exact (tick_paused henv g1 hP).2.2
                · exact .inr (tick_keeps hkF (fun _ _ _ hst => hst.isActive _) hP)
              obtain ⟨ep', q1, q2⟩ := hlast
              have i := ih' (hP'.imp id (fun h => ⟨h, ep', q1, by rw [q2]; exact hktz, by rw [q2]; exact hd⟩)) (some k')
              intro c hc
              rcases List.mem_append.mp hc with hc | hc
              · exact ⟨k', (d2 c hc).1, hd⟩
              · exact i c hc
            · rcases hP with hP | ⟨-, ep0, p1, p2, p3⟩
              · obtain ⟨t1, M, t2, t3⟩ := (tick_paused henv g1 hP).2.1 hd
                have hM : M = .accepted e1 k' :: N := by
                  rw [show (w.exec env (.tick e1 k)).1.log = _ from t2] at a1
                  exact List.append_cancel_left a1
                intro c hc
                rcases List.mem_append.mp hc with hc | hc
                · obtain ⟨-, e2, cb, hm⟩ := d2 c hc
                  exfalso
                  have := t3 e2
                  unfold Spec.heard at this
                  rw [List.filterMap_eq_nil_iff] at this
                  have := this _ (by rw [hM]; exact List.mem_cons_of_mem _ hm)
                  simp at this
                · exact ih' (.inl t1) (some k') c hc
              · exfalso
                rw [g1] at p1; injection p1 with p1; subst p1
                rw [not_lt_trans hktz p2 p3 x2] at hd; cases hd
          · have hns := hno e1 ep he g1
            have hP' : StratP (w.exec env (.tick e1 k)).1 s (PausedTo T) ∨
                (StratP (w.exec env (.tick e1 k)).1 s Free ∧ ∃ ep, (w.exec env (.tick e1 k)).1.epics[e]? = some ep ∧
                  ep.lastTick.dt.tz = T.tz ∧ ep.lastTick.dt.lt T = false) := by
              rcases hP with hP | ⟨hP, ep0, p1, p2⟩
              · exact .inl ((tick_paused henv g1 hP).1 hns)
              · refine .inr ⟨tick_keeps hkF (fun _ _ _ hst => hst.isActive _) hP, ep0, ?_, p2⟩
                rw [g3, List.getElem?_set, if_neg he]; exact p1
            intro c hc
            rcases List.mem_append.mp hc with hc | hc
            · obtain ⟨-, e2, cb, hm⟩ := d2 c hc
              exfalso
              obtain ⟨s', hs', cb', h⟩ := hN _ hm
              injection h with h; subst h
              exact hns hs'
            · exact ih' hP' (some k') c hc
    · push Not at hc
      obtain ⟨o1, o2⟩ := exec_other env w c hc
      have : L1 = [] := by rw [o1] at a1; simpa using a1
      rw [hLL, this]
      refine ih' ?_ cur
      rcases hP with hP | ⟨hP, ep0, p1, p2⟩
      · exact .inl (exec_nontick_keeps env w c hc (hu c (by simp)) (paused_switches T) hP)
      · refine .inr ⟨exec_nontick_keeps env w c hc (hu c (by simp)) free_switches hP, ?_⟩
        obtain ⟨ep', q1, q2⟩ := o2.2 e ep0 p1
        exact ⟨ep', q1, by rw [q2.last]; exact p2⟩

/-- C20 as stated, exceptions included, for a strategy registered on one epic only and paused until a datetime of the
epic's timezone. -/
theorem C20_single_epic {env : Env} {w : World} {s e : ℕ} {st : Strategy} {T : DT} {ep : Epic}
    (hst : w.strategies[s]? = some st) (h1 : st.stopped = false) (h2 : st.pausedUntil = some T)
    (hep : w.epics[e]? = some ep) (hz : T.tz = ep.zone.id)
    (henv : Spec.Untouched env s) (l : List Cmd) (hu : Spec.UntouchedBy l s)
    (hone : ∀ e' ep', e' ≠ e → (w.runCmds env l).epics[e']? = some ep' → s ∉ ep'.strategies.map Prod.snd)
    (L : List Event) (hL : (w.runCmds env l).log = w.log ++ L) :
    ∀ c ∈ Spec.calledAt s none L, ∃ k, c = some k ∧ k.dt.lt T = false :=
  single_run henv l w hu (fun ep' h => by rw [hep] at h; injection h with h; rw [← h, hz]) hone
    (.inl ⟨st, hst, h1, h2⟩) L hL none

end

/-! ## Witnesses and concrete cases -/

/-- Strategy 0 raises when the market opens. -/
def Demo.raising : Env := fun s cb _ _ => if s = 0 ∧ cb = .marketOpen then .raise .attr else .done

theorem Demo.raising_untouched (s : ℕ) : Spec.Untouched Demo.raising s := by
  intro s' cb e w
  unfold Demo.raising
  split_ifs <;> trivial

theorem Demo.quiet_untouched (s : ℕ) : Spec.Untouched Demo.quiet s := fun _ _ _ _ => trivial

/-- C19 is false: strategy 0 raises in `on_market_open`; strategy 1, registered after it, never hears that the market
opened and gets `on_every_tick_market_open` first. -/
theorem C19_false : ¬ @Spec.C19 Arith.exact := by
  letI := Arith.exact
  intro h
  have := h Demo.raising _ (Demo.reachable _ [.addStrategy 0 0, .addStrategy 0 1]) 0 1 _ _ (by rfl) (by rfl)
    (by decide +kernel) (by rfl) (by rfl) (by rfl) (Demo.raising_untouched 1)
    [.tick 0 (Demo.tk 480 10 12), .tick 0 (Demo.tk 481 10 12)]
    (by intro c hc; simp only [List.mem_cons, List.not_mem_nil, or_false] at hc
        rcases hc with rfl | rfl <;> simp)
    [.accepted 0 (Demo.tk 480 10 12), .notify 0 0 .marketOpen, .accepted 0 (Demo.tk 481 10 12),
      .notify 0 0 .everyTickOpen, .notify 0 0 .everyTick, .notify 1 0 .everyTickOpen, .notify 1 0 .everyTick]
    (by decide +kernel)
  simp [Spec.heard, Spec.Session] at this

/-- C20 is false for strategies on two epics: the tick of one epic at 08:10 clears the pause until 08:05, then the
strategy is called for the tick of the other epic at 08:00. -/
theorem C20_false : ¬ @Spec.C20 Arith.exact := by
  letI := Arith.exact
  intro h
  have := h Demo.quiet _ (Demo.reachable _ [.addStrategy 0 0, .addStrategy 1 0,
      .op (.pause 0 (some (Demo.tk 485 0 0).dt))]) 0 _ (Demo.tk 485 0 0).dt (by rfl) (by rfl) (by rfl)
    (Demo.quiet_untouched 0)
    [.tick 0 (Demo.tk 490 10 12), .tick 1 (Demo.tk 480 10 12)]
    (by intro c hc; simp only [List.mem_cons, List.not_mem_nil, or_false] at hc
        rcases hc with rfl | rfl <;> simp)
    [.accepted 0 (Demo.tk 490 10 12), .notify 0 0 .marketOpen, .notify 0 0 .everyTickOpen, .notify 0 0 .everyTick,
      .accepted 1 (Demo.tk 480 10 12), .notify 0 1 .marketOpen, .notify 0 1 .everyTickOpen, .notify 0 1 .everyTick]
    (by decide +kernel) (some (Demo.tk 480 10 12)) (by simp [Spec.calledAt])
  obtain ⟨k, h1, h2⟩ := this
  injection h1 with h1
  subst h1
  revert h2
  decide +kernel

/-- Concrete case of C18 and C19: two strategies, the second stopped after the opening; ticks at 07:59, 08:00, 08:01 and
16:01. -/
example : letI := Arith.exact
    let w := Demo.world.runCmds Demo.quiet [.addStrategy 0 0, .addStrategy 0 1, .tick 0 (Demo.tk 479 10 12),
      .tick 0 (Demo.tk 480 10 12), .op (.stop 1 true), .tick 0 (Demo.tk 481 10 12), .tick 0 (Demo.tk 961 10 12)]
    w.log = [.accepted 0 (Demo.tk 479 10 12), .notify 0 0 .everyTick, .notify 1 0 .everyTick,
      .accepted 0 (Demo.tk 480 10 12), .notify 0 0 .marketOpen, .notify 0 0 .everyTickOpen, .notify 0 0 .everyTick,
      .notify 1 0 .marketOpen, .notify 1 0 .everyTickOpen, .notify 1 0 .everyTick,
      .accepted 0 (Demo.tk 481 10 12), .notify 0 0 .everyTickOpen, .notify 0 0 .everyTick,
      .accepted 0 (Demo.tk 961 10 12), .notify 0 0 .marketClose, .notify 0 0 .everyTick] ∧
    Spec.told 0 false true [(0, true), (1, true)] = [.notify 0 0 .marketOpen, .notify 0 0 .everyTickOpen,
      .notify 0 0 .everyTick, .notify 1 0 .marketOpen, .notify 1 0 .everyTickOpen, .notify 1 0 .everyTick] ∧
    Spec.heard 0 0 w.log = [.everyTick, .marketOpen, .everyTickOpen, .everyTick, .everyTickOpen, .everyTick,
      .marketClose, .everyTick] := by decide +kernel

/-- Concrete case of C20: paused until 08:01 on one epic; the ticks at 08:00 and 08:00 are not heard, those at 08:01 and
08:02 are, and the pause is cleared. -/
example : letI := Arith.exact
    let w := Demo.world.runCmds Demo.quiet [.addStrategy 0 0, .op (.pause 0 (some (Demo.tk 481 0 0).dt)),
      .tick 0 (Demo.tk 480 10 12), .tick 0 (Demo.tk 480 11 12), .tick 0 (Demo.tk 481 10 12), .tick 0 (Demo.tk 482 10 12)]
    Spec.calledAt 0 none w.log = [some (Demo.tk 481 10 12), some (Demo.tk 481 10 12), some (Demo.tk 482 10 12),
      some (Demo.tk 482 10 12)] ∧
    w.strategies.map Strategy.pausedUntil = [none, none] := by decide +kernel

/-- Concrete case of C20: stopped. -/
example : letI := Arith.exact
    let w := Demo.world.runCmds Demo.quiet [.addStrategy 0 0, .op (.stop 0 true),
      .tick 0 (Demo.tk 480 10 12), .op (.pause 0 (some (Demo.tk 481 0 0).dt)), .tick 0 (Demo.tk 482 10 12)]
    w.log = [.accepted 0 (Demo.tk 480 10 12), .accepted 0 (Demo.tk 482 10 12)] := by decide +kernel

end Estrade
