import Verif.Props.Callbacks

/-!
# C19 when callbacks raise exceptions

Which announcements of the market a strategy hears if other strategies, frame sets or the strategy itself raise.
-/

set_option linter.style.haveILetI false
set_option linter.unusedSectionVars false
set_option autoImplicit false

namespace Estrade

section
variable [Arith]

/-! ## One turn -/

/-- A world whose log continues that of another one. -/
def LogFrom (w w' : World) : Prop := ∃ L, w'.log = w.log ++ L

theorem LogFrom.trans {a b c : World} (h1 : LogFrom a b) (h2 : LogFrom b c) : LogFrom a c := by
  obtain ⟨L, h⟩ := h1
  obtain ⟨M, g⟩ := h2
  exact ⟨L ++ M, by rw [g, h, List.append_assoc]⟩

theorem andThen_logFrom {w : World} {r : World × Option PyErr} {f : World → World × Option PyErr}
    (h : LogFrom w r.1) (hf : ∀ u, LogFrom u (f u).1) : LogFrom w (andThen r f).1 := by
  rcases andThen_cases r f with ⟨-, g⟩ | ⟨-, g⟩
  · rw [g]; exact h.trans (hf _)
  · rw [g]; exact h

theorem callIf_logFrom (env : Env) (c : Bool) (w : World) (s : ℕ) (cb : Cb) (e : ℕ) :
    LogFrom w (w.callIf env c s cb e).1 := ⟨_, (callIf_epics env c w s cb e).2⟩

theorem call_logFrom (env : Env) (w : World) (s : ℕ) (cb : Cb) (e : ℕ) :
    LogFrom w (w.call env s cb e).1 := ⟨_, (call_epics env w s cb e).2⟩

/-- Whatever is raised, the first of the notifications due is made. -/
theorem notifyAll_speaks (env : Env) (w : World) (e s : ℕ) (before : Bool) :
    ∃ cb L, (w.notifyAll env e s before).1.log = w.log ++ .notify s e cb :: L := by
  have key : ∀ (u v : World) (cb : Cb), u.log = w.log ++ [.notify s e cb] → LogFrom u v →
      ∃ cb L, v.log = w.log ++ .notify s e cb :: L := by
    rintro u v cb h ⟨L, g⟩
    exact ⟨cb, L, by rw [g, h, List.append_assoc]; rfl⟩
  have tail3 : ∀ u : World, LogFrom u (andThen (u.callIf env (u.marketOpen e) s .everyTickOpen e)
      fun w => w.call env s .everyTick e).1 := fun u =>
    andThen_logFrom (callIf_logFrom ..) (fun v => call_logFrom ..)
  have tail2 : ∀ (c : World → Bool) (u : World), LogFrom u (andThen (u.callIf env (c u) s .marketOpen e)
      fun w => andThen (w.callIf env (w.marketOpen e) s .everyTickOpen e) fun w => w.call env s .everyTick e).1 :=
    fun c u => andThen_logFrom (callIf_logFrom ..) tail3
  have skip : ∀ (u : World) (cb : Cb) (f : World → World × Option PyErr),
      andThen (u.callIf env false s cb e) f = f u := fun _ _ _ => rfl
  have first : ∀ (cb : Cb) (f : World → World × Option PyErr), (∀ u, LogFrom u (f u).1) →
      ∃ cb' L, (andThen (w.callIf env true s cb e) f).1.log = w.log ++ .notify s e cb' :: L := by
    intro cb f hf
    have h := (callIf_epics env true w s cb e).2
    rw [if_pos rfl] at h
    exact key _ _ cb h (andThen_logFrom ⟨[], by simp⟩ hf)
  unfold World.notifyAll
  cases hm : w.marketOpen e <;> cases before <;> simp only [Bool.false_and, Bool.true_and, Bool.not_false, Bool.not_true]
  · rw [skip, hm, skip, hm, skip]
    exact ⟨.everyTick, [], (call_epics env w s .everyTick e).2⟩
  · exact first _ _ (tail2 (fun _ => false))
  · rw [skip, hm]
    exact first _ _ tail3
  · rw [skip, skip, hm]
    exact first _ _ (fun u => call_logFrom ..)

/-! ## One tick -/

/-- The turns of the strategies `l1`, `s`, `l2`, whatever is raised, for a strategy `s` that stays active: it hears a
beginning of what is due, and nothing exactly if one of `l1` raises. -/
theorem execStrategies_heard {env : Env} {s : ℕ} {P : Strategy → Prop} (hk : Keeps env s P) {dt : DT}
    (hP : ∀ st, P st → Spec.Active st dt) (hP' : ∀ st, P st → P (st.isActive dt).2)
    (l1 l2 : List ℕ) (h1 : s ∉ l1) (h2 : s ∉ l2) (w : World) (hw : StratP w s P) (e : ℕ) (b : Bool) :
    ∃ L, (execStrategies env e b dt w (l1 ++ s :: l2)).1.log = w.log ++ L ∧
      Spec.heard s e L <+: Spec.notifications b (w.marketOpen e) ∧
      (Spec.heard s e L = [] ↔ (execStrategies env e b dt w l1).2 ≠ none) ∧
      ((execStrategies env e b dt w l1).2 ≠ none →
        execStrategies env e b dt w (l1 ++ s :: l2) = execStrategies env e b dt w l1) := by
  induction l1 generalizing w with
  | nil =>
    obtain ⟨st, g1, g2⟩ := hw
    have ha := (isActive_iff st dt).mpr (hP st g2)
    obtain ⟨q1, L, q2, q3, -, q5⟩ := execStrategy_log env w e s b dt
    have hne : L ≠ [] := by
      rintro rfl
      have : w.execStrategy env e s b dt =
          World.notifyAll env { w with strategies := w.strategies.set s (st.isActive dt).2 } e s b := by
        unfold World.execStrategy
        rw [g1]
        simp only [ha, if_true]
      rw [this] at q2
      obtain ⟨cb, M, hM⟩ := notifyAll_speaks env { w with strategies := w.strategies.set s (st.isActive dt).2 } e s b
      rw [hM] at q2
      simp at q2
    have hL : Spec.heard s e L <+: Spec.notifications b (w.marketOpen e) := by
      obtain ⟨M, hM⟩ := q3
      have := heard_block s e s e b (w.marketOpen e)
      rw [if_pos ⟨rfl, rfl⟩, ← hM, heard_append] at this
      exact ⟨_, this⟩
    have hL' : Spec.heard s e L ≠ [] := by
      rcases L with _ | ⟨ev, L⟩
      · exact absurd rfl hne
      · obtain ⟨M, hM⟩ := q3
        rw [notifyBlock_eq] at hM
        have : ev ∈ (Spec.notifications b (w.marketOpen e)).map (Event.notify s e) := by rw [← hM]; simp
        obtain ⟨cb, -, rfl⟩ := List.mem_map.mp this
        simp [Spec.heard]
    simp only [List.nil_append]
    have hnil : (execStrategies env e b dt w []).2 = none := rfl
    have rest : ∀ u : World, ∃ M, (execStrategies env e b dt u l2).1.log = u.log ++ M ∧ Spec.heard s e M = [] := by
      intro u
      obtain ⟨-, M, a1, a2⟩ := execStrategies_epics env e b dt l2 u
      refine ⟨M, a1, heard_other _ _ _ ?_⟩
      intro ev hev cb
      obtain ⟨s', hs', cb', rfl⟩ := a2 ev hev
      intro h
      injection h with h
      subst h
      exact h2 hs'
    show ∃ L, (andThen (w.execStrategy env e s b dt) fun w => execStrategies env e b dt w l2).1.log = _ ∧ _
    rcases andThen_cases (w.execStrategy env e s b dt) (fun w => execStrategies env e b dt w l2)
      with ⟨-, h⟩ | ⟨-, h⟩
    · obtain ⟨M, m1, m2⟩ := rest (w.execStrategy env e s b dt).1
      refine ⟨L ++ M, by rw [h, m1, q2, List.append_assoc], ?_, ?_, ?_⟩
      · rw [heard_append, m2, List.append_nil]; exact hL
      · rw [heard_append, m2, List.append_nil]
        exact ⟨fun h => absurd h hL', fun h => absurd hnil h⟩
      · exact fun h => absurd hnil h
    · refine ⟨L, by rw [h, q2], hL, ⟨fun h => absurd h hL', fun h => absurd hnil h⟩, fun h => absurd hnil h⟩
  | cons s' l1 ih =>
    have hs' : s' ≠ s := fun h => h1 (by simp [h])
    have hkeep := execStrategy_keeps hk hP' w hw e s' b
    obtain ⟨q1, L, q2, q3, -, -⟩ := execStrategy_log env w e s' b dt
    have hL : Spec.heard s e L = [] := heard_prefix s e s' e _ _ L q3 (fun h => hs' h.1)
    simp only [List.cons_append, execStrategies]
    rcases andThen_cases (w.execStrategy env e s' b dt) (fun w => execStrategies env e b dt w l1)
      with ⟨hn, h⟩ | ⟨hn, h⟩
    · rcases andThen_cases (w.execStrategy env e s' b dt) (fun w => execStrategies env e b dt w (l1 ++ s :: l2))
        with ⟨-, h'⟩ | ⟨hn', -⟩
      · obtain ⟨M, i1, i2, i3, i4⟩ := ih (fun h => h1 (List.mem_cons_of_mem _ h)) _ hkeep
        rw [h, h']
        refine ⟨L ++ M, by rw [i1, q2, List.append_assoc], ?_, ?_, i4⟩
        · rw [heard_append, hL, List.nil_append, ← marketOpen_congr q1]; exact i2
        · rw [heard_append, hL, List.nil_append]; exact i3
      · exact absurd hn hn'
    · rcases andThen_cases (w.execStrategy env e s' b dt) (fun w => execStrategies env e b dt w (l1 ++ s :: l2))
        with ⟨hn', -⟩ | ⟨-, h'⟩
      · exact absurd hn' hn
      · rw [h, h']
        exact ⟨L, q2, by rw [hL]; exact List.nil_prefix, ⟨fun _ => hn, fun _ => hL⟩, fun _ => rfl⟩

/-- An accepted tick whose frame sets raise nothing reaches the strategies. -/
theorem onNewTick_reaches (env : Env) (w : World) (e : ℕ) (k : Tick) {ep : Epic} (hep : w.epics[e]? = some ep)
    (hacc : (Spec.localTick ep.zone k).dt.lt ep.lastTick.dt = false)
    (hf : (ep.accept (Spec.localTick ep.zone k)).2 = none) :
    w.onNewTick env e k = execStrategies env e ep.marketOpen (Spec.localTick ep.zone k).dt
      (({ w with
        epics := w.epics.set e (ep.accept (Spec.localTick ep.zone k)).1
        log := w.log ++ [.accepted e (Spec.localTick ep.zone k)] } : World).updateOpenTrades ep.provider
          (Spec.localTick ep.zone k)) (ep.strategies.map Prod.snd) := by
  unfold World.onNewTick
  rw [hep]
  change (if (Spec.localTick ep.zone k).dt.lt ep.lastTick.dt = true then _ else
    match (ep.accept (Spec.localTick ep.zone k)).2 with | some err => _ | none => _) = _
  rw [hacc, hf]
  rfl

/-- C19, one tick, whatever is raised: an accepted tick at which the strategy is neither stopped nor paused (nor becomes so
in a callback).  The strategy hears a beginning of what is due (all of it unless it raises itself).  It hears nothing only if
the tick raises and none but strategies registered before it have been called. -/
theorem C19_tick {env : Env} {w : World} (hw : Reachable env w) {e s : ℕ} {ep : Epic} {st : Strategy} {k : Tick}
    (hep : w.epics[e]? = some ep) (hst : w.strategies[s]? = some st) {l1 l2 : List ℕ}
    (hs : ep.strategies.map Prod.snd = l1 ++ s :: l2) (h1 : st.stopped = false) (h2 : st.pausedUntil = none)
    {env' : Env} (henv : Spec.Untouched env' s) (hacc : (Spec.localTick ep.zone k).dt.lt ep.lastTick.dt = false) :
    ∃ L, (w.onNewTick env' e k).1.log = w.log ++ .accepted e (Spec.localTick ep.zone k) :: L ∧
      Spec.heard s e L <+: Spec.notifications ep.marketOpen (decide (Spec.Open ep (Spec.localTick ep.zone k).dt.wall)) ∧
      (Spec.heard s e L = [] → (w.onNewTick env' e k).2 ≠ none ∧ ∀ ev ∈ L, ∃ s' ∈ l1, ∃ cb, ev = .notify s' e cb) ∧
      ((w.onNewTick env' e k).2 = none →
        Spec.heard s e L = Spec.notifications ep.marketOpen (decide (Spec.Open ep (Spec.localTick ep.zone k).dt.wall))) ∧
      (l1 = [] → (ep.accept (Spec.localTick ep.zone k)).2 = none → Spec.heard s e L ≠ []) := by
  have hk : Keeps env' s Free := henv.keeps free_switches
  have hnd : (l1 ++ s :: l2).Nodup := by rw [← hs]; exact hw.registered.2 ep (List.mem_of_getElem? hep)
  have hs1 : s ∉ l1 := fun h => (List.nodup_append.mp hnd).2.2 s h s (by simp) rfl
  have hs2 : s ∉ l2 := (List.nodup_cons.mp (List.nodup_append.mp hnd).2.1).1
  have hlast : (w.onNewTick env' e k).2 = none → ∀ L, (w.onNewTick env' e k).1.log =
      w.log ++ .accepted e (Spec.localTick ep.zone k) :: L → Spec.heard s e L =
        Spec.notifications ep.marketOpen (decide (Spec.Open ep (Spec.localTick ep.zone k).dt.wall)) := by
    intro hok L hL
    obtain ⟨M, a1, -, a3⟩ := tick_heard hw hep (by rw [hs]; simp) hk (fun _ h => h.active _) (fun _ h => h.isActive _)
      ⟨st, hst, h1, h2⟩ hok
    rw [hL] at a1
    rw [← a3, ← List.append_cancel_left a1]
    rfl
  rcases hf : (ep.accept (Spec.localTick ep.zone k)).2 with _ | err
  · obtain ⟨g2, -, g4, g3⟩ := updateOpenTrades_rest ({ w with
        epics := w.epics.set e (ep.accept (Spec.localTick ep.zone k)).1
        log := w.log ++ [.accepted e (Spec.localTick ep.zone k)] } : World) ep.provider (Spec.localTick ep.zone k)
    dsimp only at g2 g3 g4
    have h := onNewTick_reaches env' w e k hep hacc hf
    rw [hs] at h
    revert g2 g3 g4 h
    generalize (({ w with
        epics := w.epics.set e (ep.accept (Spec.localTick ep.zone k)).1
        log := w.log ++ [.accepted e (Spec.localTick ep.zone k)] } : World).updateOpenTrades ep.provider
          (Spec.localTick ep.zone k)) = w1
    intro g2 g4 g3 h
    obtain ⟨L, a1, a2, a3, a4⟩ := execStrategies_heard hk (dt := (Spec.localTick ep.zone k).dt) (fun _ h => h.active _)
      (fun _ h => h.isActive _) l1 l2 hs1 hs2 w1 ⟨st, by rw [g4]; exact hst, h1, h2⟩ e ep.marketOpen
    have hlog : (w.onNewTick env' e k).1.log = w.log ++ .accepted e (Spec.localTick ep.zone k) :: L := by
      rw [h, a1, g3, List.append_assoc]; rfl
    refine ⟨L, hlog, ?_, ?_, fun hok => hlast hok L hlog, ?_⟩
    · rw [← marketOpen_accept hep g2]; exact a2
    · intro hh
      have hr := a3.mp hh
      have heq := a4 hr
      refine ⟨by rw [h, heq]; exact hr, ?_⟩
      obtain ⟨-, M, m1, m2⟩ := execStrategies_epics env' e ep.marketOpen (Spec.localTick ep.zone k).dt l1 w1
      rw [← heq, a1] at m1
      rw [List.append_cancel_left m1]
      exact m2
    · rintro rfl -
      intro hh
      exact a3.mp hh rfl
  · have h : w.onNewTick env' e k = ({ w with
        epics := w.epics.set e (ep.accept (Spec.localTick ep.zone k)).1
        log := w.log ++ [.accepted e (Spec.localTick ep.zone k)] }, some err) := by
      unfold World.onNewTick
      rw [hep]
      change (if (Spec.localTick ep.zone k).dt.lt ep.lastTick.dt = true then _ else
        match (ep.accept (Spec.localTick ep.zone k)).2 with | some err => _ | none => _) = _
      rw [hacc, hf]
      rfl
    refine ⟨[], by rw [h], List.nil_prefix, fun _ => ⟨by rw [h]; simp, by simp⟩, fun hok => ?_, fun _ hc => by cases hc⟩
    rw [h] at hok; cases hok

/-! ## Runs -/

theorem session_prefix {b now : Bool} {H : List Cb} (h : H <+: Spec.notifications b now) (hc : b ≠ now → H ≠ [])
    (l : List Cb) (hl : Spec.Session now l) : Spec.Session b (H ++ l) := by
  obtain ⟨M, hM⟩ := h
  cases b <;> cases now <;> simp only [Spec.notifications] at hM <;>
    rcases H with _ | ⟨a, _ | ⟨a', _ | ⟨a'', H⟩⟩⟩ <;> simp_all [Spec.Session]

/-- Spec: strategy `s` is called at each accepted tick of epic `e` at which the market opens or closes. -/
def Spec.HearsChanges (env : Env) (w : World) (e s : ℕ) (l : List Cmd) : Prop :=
  ∀ l1 k l2, l = l1 ++ .tick e k :: l2 → ∀ ep, (w.runCmds env l1).epics[e]? = some ep →
    (Spec.localTick ep.zone k).dt.lt ep.lastTick.dt = false →
    ¬ (ep.marketOpen = true ↔ Spec.Open ep (Spec.localTick ep.zone k).dt.wall) →
    ∃ cb M N, ((w.runCmds env l1).onNewTick env e k).1.log = (w.runCmds env l1).log ++ M ++ .notify s e cb :: N

theorem session_hears (env : Env) (e s : ℕ) (henv : Spec.Untouched env s) (l : List Cmd) : ∀ (w : World),
    Reachable env w → ∀ ep, w.epics[e]? = some ep → s ∈ ep.strategies.map Prod.snd → StratP w s Free →
    Spec.UntouchedBy l s → Spec.HearsChanges env w e s l → ∃ L, (w.runCmds env l).log = w.log ++ L ∧
      Spec.Session ep.marketOpen (Spec.heard s e L) := by
  have hk : Keeps env s Free := henv.keeps free_switches
  induction l with
  | nil => intro w _ ep _ _ _ _ _; exact ⟨[], by simp [World.runCmds], by simp [Spec.heard, Spec.Session]⟩
  | cons c l ih =>
    intro w hw ep hep hs hf hu hn
    have hu' : Spec.UntouchedBy l s := fun c hc => hu c (List.mem_cons_of_mem _ hc)
    have hn' : Spec.HearsChanges env (w.exec env c).1 e s l := by
      intro l1 k l2 hl ep' h1 h2 h3
      exact hn (c :: l1) k l2 (by rw [hl]; rfl) ep' h1 h2 h3
    obtain ⟨ep', g1, -, g2⟩ := exec_regs_mono env w c e ep hep
    by_cases hc : ∃ e t, c = .tick e t
    · obtain ⟨e0, k, rfl⟩ := hc
      have hf' : StratP (w.exec env (.tick e0 k)).1 s Free :=
        tick_keeps hk (fun _ _ st hst => hst.isActive _) hf
      obtain ⟨L', b1, b2⟩ := ih _ (hw.exec _) ep' g1 (g2 s hs) hf' hu' hn'
      by_cases he : e0 = e
      · subst he
        rcases hacc : (Spec.localTick ep.zone k).dt.lt ep.lastTick.dt with _ | _
        · obtain ⟨la, lb, hlab⟩ := List.append_of_mem hs
          obtain ⟨st, f1, f2, f3⟩ := hf
          obtain ⟨L, a1, a2, -, -, -⟩ := C19_tick hw hep f1 hlab f2 f3 henv hacc
          refine ⟨.accepted e0 (Spec.localTick ep.zone k) :: L ++ L', by
            rw [runCmds_cons, b1, show (w.exec env (.tick e0 k)).1.log = _ from a1, List.append_assoc], ?_⟩
          have hnow : ep'.marketOpen = decide (Spec.Open ep (Spec.localTick ep.zone k).dt.wall) := by
            rcases tick_effect env w e0 k with ⟨-, h⟩ | ⟨x, h1, -, h2, -⟩
            · have := h ep hep
              change (Spec.localTick ep.zone k).dt.lt ep.lastTick.dt = true at this
              rw [this] at hacc; cases hacc
            · rw [hep] at h1; injection h1 with h1; subst h1
              have := marketOpen_accept (k := Spec.localTick ep.zone k) hep h2
              unfold World.marketOpen at this
              rw [g1] at this
              exact this
          have hsplit : Spec.heard s e0 (.accepted e0 (Spec.localTick ep.zone k) :: L ++ L') =
              Spec.heard s e0 L ++ Spec.heard s e0 L' := by
            rw [heard_append]; rfl
          rw [hsplit]
          refine session_prefix a2 ?_ _ (by rw [← hnow]; exact b2)
          intro hch hnil
          obtain ⟨cb, M, N, hMN⟩ := hn [] k l rfl ep hep hacc (by
            intro hiff; apply hch
            by_cases ho : Spec.Open ep (Spec.localTick ep.zone k).dt.wall
            · rw [hiff.mpr ho]; simp [ho]
            · have hfalse : ep.marketOpen = false := by rw [Bool.eq_false_iff]; exact fun h => ho (hiff.mp h)
              rw [hfalse]; simp [ho])
          change (w.onNewTick env e0 k).1.log = w.log ++ M ++ _ at hMN
          rw [a1, List.append_assoc] at hMN
          have hh := congrArg (Spec.heard s e0) (List.append_cancel_left hMN)
          rw [heard_append] at hh
          change Spec.heard s e0 L = _ at hh
          rw [hnil] at hh
          have := (List.append_eq_nil_iff.mp hh.symm).2
          simp [Spec.heard] at this
        · have hrej : w.exec env (.tick e0 k) = (w, some .epic) := onNewTick_rejected env w e0 k ep hep hacc
          rw [hrej] at b1 g1
          rw [hep] at g1; injection g1 with g1; subst g1
          exact ⟨L', by rw [runCmds_cons, hrej]; exact b1, b2⟩
      · obtain ⟨L, a1, a2⟩ := exec_log env w (.tick e0 k)
        refine ⟨L ++ L', by rw [runCmds_cons, b1, a1, List.append_assoc], ?_⟩
        have hL : Spec.heard s e L = [] := by
          apply heard_other
          rcases a2 with rfl | ⟨e1, k1, N, hc, x, -, -, rfl, hN⟩
          · simp
          · injection hc with h1 h2; subst h1
            intro ev hev cb
            rcases List.mem_cons.mp hev with rfl | hev
            · simp
            · obtain ⟨s', -, cb', rfl⟩ := hN ev hev
              simp only [ne_eq, Event.notify.injEq, not_and]
              intro _ h; exact absurd h he
        rw [heard_append, hL]
        have : ep'.marketOpen = ep.marketOpen := by
          rcases tick_effect env w e0 k with ⟨h, -⟩ | ⟨x, h1, -, h2, -⟩
          · rw [h, hep] at g1; injection g1 with g1; rw [g1]
          · rw [h2, List.getElem?_set, if_neg he, hep] at g1; injection g1 with g1; rw [g1]
        rw [← this]; exact b2
    · push Not at hc
      obtain ⟨h1, -, h2⟩ := exec_other env w c hc
      obtain ⟨x, x1, x2⟩ := h2 e ep hep
      rw [g1] at x1; injection x1 with x1; subst x1
      obtain ⟨L', b1, b2⟩ := ih _ (hw.exec _) ep' g1 (g2 s hs)
        (exec_nontick_keeps env w c hc (hu c (by simp)) free_switches hf) hu' hn'
      exact ⟨L', by rw [runCmds_cons, b1, h1], by rw [← x2.flag]; exact b2⟩

/-- C19 with exceptions: ticks may raise at will, before, during and after the calls of the strategy, as long as the strategy
is called at the ticks at which the market opens or closes.  Missing for the full statement: an exception raised before its
turn at such a tick (`C19_false`). -/
theorem C19_heard_partial {env : Env} {w : World} (hw : Reachable env w) {e s : ℕ} {ep : Epic} {st : Strategy}
    (hep : w.epics[e]? = some ep) (hst : w.strategies[s]? = some st) (hs : s ∈ ep.strategies.map Prod.snd)
    (hclosed : ep.marketOpen = false) (h1 : st.stopped = false) (h2 : st.pausedUntil = none)
    (henv : Spec.Untouched env s) (l : List Cmd) (hu : Spec.UntouchedBy l s) (hn : Spec.HearsChanges env w e s l)
    (L : List Event) (hL : (w.runCmds env l).log = w.log ++ L) : Spec.Session false (Spec.heard s e L) := by
  obtain ⟨L', a1, a2⟩ := session_hears env e s henv l w hw ep hep hs ⟨st, hst, h1, h2⟩ hu hn
  rw [hL] at a1
  have := List.append_cancel_left a1
  rw [this, ← hclosed]; exact a2

/-- The strategy registered first stays first. -/
theorem run_first (env : Env) (l : List Cmd) (w : World) {e s : ℕ} {ep : Epic} {r : String} {rest : Dict ℕ}
    (hep : w.epics[e]? = some ep) (hs : ep.strategies = (r, s) :: rest) :
    ∃ ep' rest', (w.runCmds env l).epics[e]? = some ep' ∧ ep'.strategies = (r, s) :: rest' := by
  induction l generalizing w ep rest with
  | nil => exact ⟨ep, rest, hep, hs⟩
  | cons c l ih =>
    obtain ⟨ep1, h1, -, -⟩ := exec_regs_mono env w c e ep hep
    obtain ⟨x, x1, -, x3⟩ := exec_regs env w c e ep1 h1
    rw [hep] at x1; injection x1 with x1; subst x1
    rcases x3 with x3 | ⟨s', st, -, -, -, x3⟩
    · exact ih _ h1 (x3.trans hs)
    · exact ih _ h1 (rest := rest ++ _) (by rw [x3, hs]; rfl)

/-- Spec: no frame set of epic `e` raises at an accepted tick (the strategies may). -/
def Spec.FrameSetsCalm (env : Env) (w : World) (e : ℕ) (l : List Cmd) : Prop :=
  ∀ l1 k l2, l = l1 ++ .tick e k :: l2 → ∀ ep, (w.runCmds env l1).epics[e]? = some ep →
    (Spec.localTick ep.zone k).dt.lt ep.lastTick.dt = false → (ep.accept (Spec.localTick ep.zone k)).2 = none

/-- C19 for the strategy registered first: it alternates whatever all strategies (itself included) raise, if the frame sets
raise nothing. -/
theorem C19_first_partial {env : Env} {w : World} (hw : Reachable env w) {e s : ℕ} {ep : Epic} {st : Strategy}
    (hep : w.epics[e]? = some ep) (hst : w.strategies[s]? = some st) {r : String} {rest : Dict ℕ}
    (hs : ep.strategies = (r, s) :: rest) (hclosed : ep.marketOpen = false) (h1 : st.stopped = false)
    (h2 : st.pausedUntil = none) (henv : Spec.Untouched env s) (l : List Cmd) (hu : Spec.UntouchedBy l s)
    (hq : Spec.FrameSetsCalm env w e l) (L : List Event) (hL : (w.runCmds env l).log = w.log ++ L) :
    Spec.Session false (Spec.heard s e L) := by
  refine C19_heard_partial hw hep hst (by rw [hs]; simp) hclosed h1 h2 henv l hu ?_ L hL
  intro l1 k l2 hl ep1 he1 hacc _
  obtain ⟨ep1', rest', e1, e2⟩ := run_first env l1 w hep hs
  rw [he1] at e1; injection e1 with e1; subst e1
  have hu1 : Spec.UntouchedBy l1 s := fun c hc => hu c (by rw [hl]; exact List.mem_append_left _ hc)
  obtain ⟨st1, f1, f2, f3⟩ : StratP (w.runCmds env l1) s Free := by
    clear hL hq hl he1 hacc e2
    have hk : Keeps env s Free := henv.keeps free_switches
    have h0 : StratP w s Free := ⟨st, hst, h1, h2⟩
    clear hw hep hst hs hclosed h1 h2 hu
    induction l1 generalizing w with
    | nil => exact h0
    | cons c l1 ih =>
      rw [runCmds_cons]
      refine ih (fun c hc => hu1 c (List.mem_cons_of_mem _ hc)) ?_
      by_cases hc : ∃ e t, c = .tick e t
      · obtain ⟨e0, k0, rfl⟩ := hc
        exact tick_keeps hk (fun _ _ st hst => hst.isActive _) h0
      · push Not at hc
        exact exec_nontick_keeps env w c hc (hu1 c (by simp)) free_switches h0
  obtain ⟨M, a1, -, -, -, a5⟩ := C19_tick (l1 := []) (l2 := rest'.map Prod.snd) (hw.run l1) he1 f1
    (by rw [e2]; rfl) f2 f3 henv hacc
  have hne := a5 rfl (hq l1 k l2 hl ep1 he1 hacc)
  obtain ⟨cb, hcb⟩ := List.exists_mem_of_ne_nil _ hne
  unfold Spec.heard at hcb
  obtain ⟨ev, hev, hcb⟩ := List.mem_filterMap.mp hcb
  cases ev with
  | accepted e' k' => cases hcb
  | notify s' e' cb' =>
    simp only [Option.ite_none_right_eq_some] at hcb
    obtain ⟨⟨rfl, rfl⟩, -⟩ := hcb
    obtain ⟨A, B, hAB⟩ := List.append_of_mem hev
    exact ⟨cb', .accepted e' (Spec.localTick ep1.zone k) :: A, B, by rw [a1, hAB]; simp⟩

end

/-- Strategy 0 raises at every call; strategy 1 does nothing. -/
def Demo.grumpy : Env := fun s _ _ _ => if s = 0 then .raise .attr else .done

/-- Concrete case of `C19_first_partial`: the first strategy raises at every call and hears a beginning of what is due at each
of the ticks at 07:59, 08:00, 08:01 and 16:01; the second hears nothing at all. -/
example : letI := Arith.exact
    let w := Demo.world.runCmds Demo.grumpy [.addStrategy 0 0, .addStrategy 0 1, .tick 0 (Demo.tk 479 10 12),
      .tick 0 (Demo.tk 480 10 12), .tick 0 (Demo.tk 481 10 12), .tick 0 (Demo.tk 961 10 12)]
    Spec.heard 0 0 w.log = [.everyTick, .marketOpen, .everyTickOpen, .marketClose] ∧
    Spec.heard 1 0 w.log = [] := by decide +kernel

/-- Concrete case of `C19_heard_partial`: strategy 0 raises at the ticks at which the market state does not change
(`on_every_tick` of a closed market); strategy 1 misses the tick at 07:59 and alternates. -/
example : letI := Arith.exact
    let env : Env := fun s cb e w => if s = 0 ∧ cb = .everyTick ∧ w.epics[e]?.map (fun x => x.marketOpen) = some false
      then .raise .attr else .done
    let w := Demo.world.runCmds env [.addStrategy 0 0, .addStrategy 0 1, .tick 0 (Demo.tk 479 10 12),
      .tick 0 (Demo.tk 480 10 12), .tick 0 (Demo.tk 481 10 12)]
    Spec.heard 1 0 w.log = [.marketOpen, .everyTickOpen, .everyTick, .everyTickOpen, .everyTick] ∧
    Spec.heard 0 0 w.log = [.everyTick, .marketOpen, .everyTickOpen, .everyTick, .everyTickOpen, .everyTick] := by
  decide +kernel

end Estrade
