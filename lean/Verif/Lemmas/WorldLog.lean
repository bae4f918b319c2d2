import Verif.Lemmas.WorldSteps

/-!
# What a tick does to epics and to the log
-/

set_option linter.unusedSectionVars false
set_option autoImplicit false

namespace Estrade

section
variable [Arith]

/-- Operations leave epics and log alone. -/
theorem step_epics (w : World) (o : Op) : (w.step o).1.epics = w.epics ∧ (w.step o).1.log = w.log := by
  have hcl : ∀ (u u' : World) (p i : ℕ) (q : Option ℤ), u.closeOn p i q = .ok u' →
      u'.epics = u.epics ∧ u'.log = u.log := by
    intro u u' p i q h
    obtain ⟨t, ep, -, -, rfl⟩ := closeOn_eq h
    exact ⟨rfl, rfl⟩
  have hct : ∀ (u u' : World) (e i : ℕ) (q : Option ℤ), u.closeTrade e i q = .ok u' →
      u'.epics = u.epics ∧ u'.log = u.log := by
    intro u u' e i q h
    unfold World.closeTrade at h
    split at h
    · cases h
    · exact hcl _ _ _ _ _ h
  have hk : ∀ r : Except PyErr World, (∀ w', r = .ok w' → w'.epics = w.epics ∧ w'.log = w.log) →
      (orKeep w r).1.epics = w.epics ∧ (orKeep w r).1.log = w.log := by
    intro r hr
    cases r with
    | error e => exact ⟨rfl, rfl⟩
    | ok w' => exact hr w' rfl
  have hnet : ∀ (l : List ℕ) (p : ℕ) (u u' : World) (t t' : Trade), netLoop p u t l = .ok (u', t') →
      u'.epics = u.epics ∧ u'.log = u.log := by
    intro l
    induction l with
    | nil =>
      intro p u u' t t' h
      injection h with h; injection h with h1 h2; rw [← h1]; exact ⟨rfl, rfl⟩
    | cons i l ih =>
      intro p u u' t t' h
      unfold netLoop at h
      split at h
      · cases h
      · rename_i x hx
        split_ifs at h
        · exact ih _ _ _ _ _ h
        · simp only at h
          rcases hc : u.closeOn p i (some (min x.openedQty t.openQty)) with err | v
          · rw [hc] at h; cases h
          · rw [hc] at h
            obtain ⟨a, b⟩ := ih _ _ _ _ _ h
            obtain ⟨c, d⟩ := hcl _ _ _ _ _ hc
            exact ⟨a.trans c, b.trans d⟩
        · exact ih _ _ _ _ _ h
  have hcol : ∀ (l : List ℕ) (q : Option ℤ) (u u' : World), closeOpenedLoop q u l = .ok u' →
      u'.epics = u.epics ∧ u'.log = u.log := by
    intro l
    induction l with
    | nil => intro q u u' h; injection h with h; rw [← h]; exact ⟨rfl, rfl⟩
    | cons i l ih =>
      intro q u u' h
      unfold closeOpenedLoop at h
      split at h
      · cases h
      · rename_i t ht
        split_ifs at h
        · exact ih _ _ _ h
        · rcases hc : u.closeTrade t.epic i q with err | v
          · rw [hc] at h; cases h
          · rw [hc] at h
            obtain ⟨a, b⟩ := ih _ _ _ h
            obtain ⟨c, d⟩ := hct _ _ _ _ _ hc
            exact ⟨a.trans c, b.trans d⟩
  cases o with
  | openTrade e s d q =>
    simp only [World.step]
    split
    · exact ⟨rfl, rfl⟩
    · rename_i ep hep
      split_ifs
      · apply hk
        intro w' h
        rcases ht : Trade.openFromTick ep.lastTick e d q s with err | t
        · rw [ht] at h; cases h
        · rw [ht] at h
          simp only [bind, Except.bind] at h
          unfold World.providerOpen at h
          split at h
          · cases h
          · rename_i pr hpr
            split at h
            · injection h with h; rw [← h]
              exact ⟨(register_epics _ _ _ _).1, (register_epics _ _ _ _).2.1⟩
            · rcases hn : netLoop ep.provider w t (w.openedTrades pr) with err | ⟨u, t'⟩
              · rw [hn] at h; cases h
              · rw [hn] at h
                simp only [bind, Except.bind] at h
                have := hnet _ _ _ _ _ _ hn
                split_ifs at h
                · injection h with h; rw [← h]; exact this
                · injection h with h; rw [← h]
                  exact ⟨(register_epics _ _ _ _).1.trans this.1,
                    (register_epics _ _ _ _).2.1.trans this.2⟩
      · exact ⟨rfl, rfl⟩
  | closeTrade e t q => exact hk _ (fun w' h => hct _ _ _ _ _ h)
  | closeOpened s q =>
    simp only [World.step]
    split
    · exact ⟨rfl, rfl⟩
    · exact hk _ (fun w' h => hcol _ _ _ _ h)
  | update t v => exact ⟨rfl, rfl⟩
  | close t v dt q => exact ⟨rfl, rfl⟩
  | pause s d => exact ⟨rfl, rfl⟩
  | stop s b => exact ⟨rfl, rfl⟩
  | thread p i st => exact runThread_epics w p i st

theorem prog_epics (p : Prog) (w : World) : (p.run w).1.epics = w.epics ∧ (p.run w).1.log = w.log := by
  induction p generalizing w with
  | done => exact ⟨rfl, rfl⟩
  | raise e => exact ⟨rfl, rfl⟩
  | act o k ih =>
    obtain ⟨a, b⟩ := ih (w.step o).1 (w.step o).2 (w.step o).1
    obtain ⟨c, d⟩ := step_epics w o
    exact ⟨a.trans c, b.trans d⟩

theorem call_epics (env : Env) (w : World) (s : ℕ) (cb : Cb) (e : ℕ) :
    (w.call env s cb e).1.epics = w.epics ∧ (w.call env s cb e).1.log = w.log ++ [.notify s e cb] := by
  unfold World.call
  exact prog_epics _ _

theorem callIf_epics (env : Env) (c : Bool) (w : World) (s : ℕ) (cb : Cb) (e : ℕ) :
    (w.callIf env c s cb e).1.epics = w.epics ∧
      (w.callIf env c s cb e).1.log = w.log ++ (if c then [.notify s e cb] else []) := by
  unfold World.callIf
  split_ifs
  · exact call_epics env w s cb e
  · simp

theorem marketOpen_congr {w w' : World} (h : w'.epics = w.epics) (e : ℕ) :
    w'.marketOpen e = w.marketOpen e := by unfold World.marketOpen; rw [h]

/-- The notifications of one strategy for one tick, in order. -/
def notifyBlock (s e : ℕ) (before now : Bool) : List Event :=
  (if before && !now then [.notify s e .marketClose] else []) ++
  (if !before && now then [.notify s e .marketOpen] else []) ++
  (if now then [.notify s e .everyTickOpen] else []) ++ [.notify s e .everyTick]

theorem andThen_cases (r : World × Option PyErr) (f : World → World × Option PyErr) :
    (r.2 = none ∧ andThen r f = f r.1) ∨ (r.2 ≠ none ∧ andThen r f = r) := by
  obtain ⟨u, err⟩ := r
  cases err with
  | none => exact .inl ⟨rfl, rfl⟩
  | some e => exact .inr ⟨by simp, rfl⟩

/-- Epics are unchanged; the log grows by the block, or by a prefix of it when a callback raised. -/
theorem notifyAll_log (env : Env) (w : World) (e s : ℕ) (before : Bool) :
    (w.notifyAll env e s before).1.epics = w.epics ∧
    ∃ L, (w.notifyAll env e s before).1.log = w.log ++ L ∧
      L <+: notifyBlock s e before (w.marketOpen e) ∧
      ((w.notifyAll env e s before).2 = none → L = notifyBlock s e before (w.marketOpen e)) := by
  unfold World.notifyAll
  set m := w.marketOpen e with hm
  set r1 := w.callIf env (before && !m) s .marketClose e with hr1
  obtain ⟨e1, l1⟩ := callIf_epics env (before && !m) w s .marketClose e
  rw [← hr1] at e1 l1
  have m1 : r1.1.marketOpen e = m := marketOpen_congr e1 e
  rcases andThen_cases r1 _ with ⟨-, h⟩ | ⟨hne, h⟩
  · rw [h, m1]
    clear h
    set r2 := r1.1.callIf env (!before && m) s .marketOpen e with hr2
    obtain ⟨e2, l2⟩ := callIf_epics env (!before && m) r1.1 s .marketOpen e
    rw [← hr2] at e2 l2
    have m2 : r2.1.marketOpen e = m := (marketOpen_congr e2 e).trans m1
    rcases andThen_cases r2 _ with ⟨-, h⟩ | ⟨hne, h⟩
    · rw [h, m2]
      clear h
      set r3 := r2.1.callIf env m s .everyTickOpen e with hr3
      obtain ⟨e3, l3⟩ := callIf_epics env m r2.1 s .everyTickOpen e
      rw [← hr3] at e3 l3
      rcases andThen_cases r3 _ with ⟨-, h⟩ | ⟨hne, h⟩
      · rw [h]
        obtain ⟨e4, l4⟩ := call_epics env r3.1 s .everyTick e
        refine ⟨e4.trans (e3.trans (e2.trans e1)), notifyBlock s e before m, ?_, List.prefix_refl _,
          fun _ => rfl⟩
        rw [l4, l3, l2, l1]
        simp only [notifyBlock, List.append_assoc]
      · rw [h]
        refine ⟨e3.trans (e2.trans e1),
          (if before && !m then [.notify s e .marketClose] else []) ++
          ((if !before && m then [.notify s e .marketOpen] else []) ++
          (if m then [.notify s e .everyTickOpen] else [])), ?_, ?_, fun hn => absurd hn hne⟩
        · rw [l3, l2, l1, List.append_assoc, List.append_assoc]
        · refine ⟨[.notify s e .everyTick], ?_⟩
          simp only [notifyBlock, List.append_assoc]
    · rw [h]
      refine ⟨e2.trans e1, (if before && !m then [.notify s e .marketClose] else []) ++
          (if !before && m then [.notify s e .marketOpen] else []), ?_, ?_, fun hn => absurd hn hne⟩
      · rw [l2, l1, List.append_assoc]
      · refine ⟨(if m then [.notify s e .everyTickOpen] else []) ++ [.notify s e .everyTick], ?_⟩
        simp only [notifyBlock, List.append_assoc]
  · rw [h]
    refine ⟨e1, _, l1, ?_, fun hn => absurd hn hne⟩
    refine ⟨(if !before && m then [.notify s e .marketOpen] else []) ++
      ((if m then [.notify s e .everyTickOpen] else []) ++ [.notify s e .everyTick]), ?_⟩
    simp only [notifyBlock, List.append_assoc]

/-- A strategy that is to be called for a tick dated `dt`: not stopped, not paused beyond it. -/
def Spec.Active (st : Strategy) (dt : DT) : Prop :=
  st.stopped = false ∧ ∀ p, st.pausedUntil = some p → dt.lt p = false

theorem isActive_iff (st : Strategy) (dt : DT) : (st.isActive dt).1 = true ↔ Spec.Active st dt := by
  unfold Strategy.isActive Spec.Active
  cases hs : st.stopped
  · simp only [Bool.false_eq_true, if_false, true_and]
    split
    · rename_i h; simp [h]
    · rename_i p h
      split_ifs with h'
      · simp [h, h']
      · simp [h, h']
  · simp

/-- One strategy's turn. -/
theorem execStrategy_log (env : Env) (w : World) (e s : ℕ) (before : Bool) (dt : DT) :
    (w.execStrategy env e s before dt).1.epics = w.epics ∧
    ∃ L, (w.execStrategy env e s before dt).1.log = w.log ++ L ∧
      L <+: notifyBlock s e before (w.marketOpen e) ∧
      (∀ st, w.strategies[s]? = some st → ¬ Spec.Active st dt →
        L = [] ∧ (w.execStrategy env e s before dt).2 = none) ∧
      (∀ st, w.strategies[s]? = some st → Spec.Active st dt →
        (w.execStrategy env e s before dt).2 = none → L = notifyBlock s e before (w.marketOpen e)) := by
  unfold World.execStrategy
  rcases hs : w.strategies[s]? with _ | st
  · simp only
    exact ⟨trivial, [], by simp, List.nil_prefix, by simp, by simp⟩
  · simp only
    by_cases ha : (st.isActive dt).1
    · rw [if_pos ha]
      obtain ⟨h1, L, h2, h3, h4⟩ := notifyAll_log env
        { w with strategies := w.strategies.set s (st.isActive dt).2 } e s before
      refine ⟨h1, L, h2, h3, ?_, ?_⟩
      · intro st' hst hna
        injection hst with hst; subst hst
        exact absurd ((isActive_iff st dt).mp ha) hna
      · intro st' hst _ hn; exact h4 hn
    · rw [if_neg ha]
      refine ⟨rfl, [], by simp, List.nil_prefix, fun _ _ _ => ⟨rfl, rfl⟩, ?_⟩
      intro st' hst hact
      injection hst with hst; subst hst
      exact absurd ((isActive_iff st dt).mpr hact) ha

/-- The world in which the strategy at position `i` of `l` gets its turn. -/
def turn (env : Env) (e : ℕ) (before : Bool) (dt : DT) (w : World) (l : List ℕ) (i : ℕ) : World :=
  (execStrategies env e before dt w (l.take i)).1

theorem execStrategies_epics (env : Env) (e : ℕ) (before : Bool) (dt : DT) (l : List ℕ) (w : World) :
    (execStrategies env e before dt w l).1.epics = w.epics ∧
    ∃ L, (execStrategies env e before dt w l).1.log = w.log ++ L ∧
      ∀ ev ∈ L, ∃ s ∈ l, ∃ cb, ev = .notify s e cb := by
  induction l generalizing w with
  | nil => exact ⟨rfl, [], by simp [execStrategies], by simp⟩
  | cons s rest ih =>
    unfold execStrategies
    obtain ⟨h1, L, h2, h3, -⟩ := execStrategy_log env w e s before dt
    have hmem : ∀ ev ∈ L, ∃ s' ∈ s :: rest, ∃ cb, ev = .notify s' e cb := by
      intro ev hev
      have := h3.subset hev
      refine ⟨s, by simp, ?_⟩
      simp only [notifyBlock, List.mem_append] at this
      rcases this with ((h | h) | h) | h
      · split_ifs at h
        · exact ⟨_, List.mem_singleton.mp h⟩
        · cases h
      · split_ifs at h
        · exact ⟨_, List.mem_singleton.mp h⟩
        · cases h
      · split_ifs at h
        · exact ⟨_, List.mem_singleton.mp h⟩
        · cases h
      · exact ⟨_, List.mem_singleton.mp h⟩
    rcases andThen_cases (w.execStrategy env e s before dt) (fun w => execStrategies env e before dt w rest)
      with ⟨-, h⟩ | ⟨-, h⟩
    · rw [h]
      obtain ⟨i1, L', i2, i3⟩ := ih (w.execStrategy env e s before dt).1
      refine ⟨i1.trans h1, L ++ L', by rw [i2, h2, List.append_assoc], ?_⟩
      intro ev hev
      rcases List.mem_append.mp hev with hev | hev
      · exact hmem ev hev
      · obtain ⟨s', hs', cb, hcb⟩ := i3 ev hev
        exact ⟨s', by simp [hs'], cb, hcb⟩
    · rw [h]
      exact ⟨h1, L, h2, hmem⟩

theorem turn_succ (env : Env) (e : ℕ) (before : Bool) (dt : DT) (w : World) (s : ℕ) (rest : List ℕ)
    (h : (w.execStrategy env e s before dt).2 = none) (i : ℕ) :
    turn env e before dt w (s :: rest) (i + 1) =
      turn env e before dt (w.execStrategy env e s before dt).1 rest i := by
  unfold turn
  rw [List.take_succ_cons, execStrategies]
  rcases andThen_cases (w.execStrategy env e s before dt)
    (fun w => execStrategies env e before dt w (rest.take i)) with ⟨-, h'⟩ | ⟨hne, -⟩
  · rw [h']
  · exact absurd h hne

/-- All strategies' turns, when nothing raises. -/
theorem execStrategies_log (env : Env) (e : ℕ) (before : Bool) (dt : DT) (l : List ℕ) (w : World)
    (hok : (execStrategies env e before dt w l).2 = none) :
    ∃ acts : List Bool, acts.length = l.length ∧
      (execStrategies env e before dt w l).1.log = w.log ++
        (l.zip acts).flatMap (fun p => if p.2 then notifyBlock p.1 e before (w.marketOpen e) else []) ∧
      ∀ i s, l[i]? = some s → ∃ st, (turn env e before dt w l i).strategies[s]? = some st ∧
        (acts[i]? = some true ↔ Spec.Active st dt) := by
  induction l generalizing w with
  | nil => exact ⟨[], rfl, by simp [execStrategies], by simp⟩
  | cons s rest ih =>
    unfold execStrategies at hok
    obtain ⟨h1, L, h2, h3, h4, h5⟩ := execStrategy_log env w e s before dt
    rcases andThen_cases (w.execStrategy env e s before dt) (fun w => execStrategies env e before dt w rest)
      with ⟨hn, h⟩ | ⟨hne, h⟩
    · rw [h] at hok
      obtain ⟨acts, a1, a2, a3⟩ := ih _ hok
      obtain ⟨st, hst⟩ : ∃ st, w.strategies[s]? = some st := by
        rcases hs : w.strategies[s]? with _ | st
        · unfold World.execStrategy at hn
          rw [hs] at hn
          cases hn
        · exact ⟨st, rfl⟩
      classical
      refine ⟨decide (Spec.Active st dt) :: acts, by simp [a1], ?_, ?_⟩
      · unfold execStrategies
        rw [h, a2, h2, List.append_assoc, marketOpen_congr h1]
        congr 1
        rw [List.zip_cons_cons, List.flatMap_cons]
        congr 1
        by_cases ha : Spec.Active st dt
        · simp only [ha, decide_true, if_true]
          exact h5 st hst ha hn
        · simp only [ha, decide_false, Bool.false_eq_true, if_false]
          exact (h4 st hst ha).1
      · intro i s' hi
        cases i with
        | zero =>
          simp only [List.getElem?_cons_zero, Option.some.injEq] at hi
          subst hi
          exact ⟨st, hst, by simp⟩
        | succ i =>
          simp only [List.getElem?_cons_succ] at hi ⊢
          rw [turn_succ env e before dt w s rest hn]
          exact a3 i s' hi
    · rw [h] at hok; exact absurd hok hne

/-! ## The whole tick -/

/-- What a tick does to epics and log, whatever the callbacks do. -/
theorem onNewTick_effect (env : Env) (w : World) (e : ℕ) (k : Tick) (ep : Epic)
    (hep : w.epics[e]? = some ep) (hacc : (k.dt.to ep.zone).lt ep.lastTick.dt = false) :
    let k' : Tick := { k with dt := k.dt.to ep.zone }
    (w.onNewTick env e k).1.epics = w.epics.set e (ep.accept k').1 ∧
    ∃ L, (w.onNewTick env e k).1.log = w.log ++ .accepted e k' :: L ∧
      ∀ ev ∈ L, ∃ s ∈ ep.strategies.map Prod.snd, ∃ cb, ev = .notify s e cb := by
  intro k'
  unfold World.onNewTick
  simp only [hep, hacc, Bool.false_eq_true, if_false]
  split
  · exact ⟨rfl, [], rfl, by simp⟩
  · have hu : ∀ (u : World) (p : ℕ) (t : Tick), (u.updateOpenTrades p t).epics = u.epics ∧
        (u.updateOpenTrades p t).log = u.log := fun u p t =>
      ⟨(updateOpenTrades_steps (V := False) u p t).epics, (updateOpenTrades_steps (V := False) u p t).log⟩
    obtain ⟨h1, L, h2, h3⟩ := execStrategies_epics env e ep.marketOpen (k.dt.to ep.zone)
      (ep.strategies.map Prod.snd)
      (({ w with epics := w.epics.set e (ep.accept k').1, log := w.log ++ [.accepted e k'] } :
        World).updateOpenTrades ep.provider k')
    refine ⟨h1.trans (hu _ _ _).1, L, ?_, h3⟩
    rw [h2, (hu _ _ _).2]
    simp

theorem onNewTick_rejected (env : Env) (w : World) (e : ℕ) (k : Tick) (ep : Epic)
    (hep : w.epics[e]? = some ep) (hrej : (k.dt.to ep.zone).lt ep.lastTick.dt = true) :
    w.onNewTick env e k = (w, some .epic) := by
  unfold World.onNewTick
  simp only [hep, hrej, if_true]

/-- The fields of an epic that ticks never change. -/
theorem accept_fields (ep : Epic) (k : Tick) :
    (ep.accept k).1.zone = ep.zone ∧ (ep.accept k).1.lastTick = k ∧
    (ep.accept k).1.openTime = ep.openTime ∧ (ep.accept k).1.closeTime = ep.closeTime ∧
    (ep.accept k).1.tradeDays = ep.tradeDays ∧ (ep.accept k).1.holidays = ep.holidays ∧
    (ep.accept k).1.strategies = ep.strategies ∧ (ep.accept k).1.provider = ep.provider ∧
    (ep.accept k).1.ref = ep.ref := ⟨rfl, rfl, rfl, rfl, rfl, rfl, rfl, rfl, rfl⟩

theorem getElem?_lt {α : Type} {l : List α} {i : ℕ} {x : α} (h : l[i]? = some x) : i < l.length := by
  by_contra hc
  rw [List.getElem?_eq_none (by omega)] at h; cases h

/-- Same clock and same calendar. -/
structure SameClock (ep' ep : Epic) : Prop where
  last : ep'.lastTick = ep.lastTick
  flag : ep'.marketOpen = ep.marketOpen
  zone : ep'.zone = ep.zone
  opening : ep'.openTime = ep.openTime
  closing : ep'.closeTime = ep.closeTime
  days : ep'.tradeDays = ep.tradeDays
  off : ep'.holidays = ep.holidays

theorem SameClock.refl (ep : Epic) : SameClock ep ep := ⟨rfl, rfl, rfl, rfl, rfl, rfl, rfl⟩

/-- Every epic keeps its clock and calendar. -/
def ClocksKept (l l' : List Epic) : Prop :=
  l'.length = l.length ∧ ∀ (e : ℕ) ep, l[e]? = some ep → ∃ ep', l'[e]? = some ep' ∧ SameClock ep' ep

theorem ClocksKept.refl (l : List Epic) : ClocksKept l l := ⟨rfl, fun _ ep h => ⟨ep, h, .refl ep⟩⟩

theorem ClocksKept.set {l : List Epic} {e0 : ℕ} {ep0 x : Epic} (h0 : l[e0]? = some ep0)
    (hx : SameClock x ep0) : ClocksKept l (l.set e0 x) := by
  refine ⟨by simp, fun e ep hep => ?_⟩
  rw [List.getElem?_set]
  by_cases he : e0 = e
  · subst he
    rw [h0] at hep; injection hep with hep; subst hep
    rw [if_pos rfl, if_pos (getElem?_lt h0)]
    exact ⟨x, rfl, hx⟩
  · rw [if_neg he]
    exact ⟨ep, hep, .refl ep⟩

/-- Commands other than ticks: the log is unchanged, and so are the clock and the calendar of every epic. -/
theorem exec_other (env : Env) (w : World) (c : Cmd) (hc : ∀ e t, c ≠ .tick e t) :
    (w.exec env c).1.log = w.log ∧ ClocksKept w.epics (w.exec env c).1.epics := by
  cases c with
  | tick e t => exact absurd rfl (hc e t)
  | op o =>
    refine ⟨(step_epics w o).2, ?_⟩
    show ClocksKept _ (w.step o).1.epics
    rw [(step_epics w o).1]; exact .refl _
  | addFrameSet e0 ref fs =>
    simp only [World.exec, World.addFrameSet]
    rcases h0 : w.epics[e0]? with _ | ep0
    · exact ⟨rfl, .refl _⟩
    · simp only
      rcases ha : ep0.addFrameSet ref fs with err | x
      · exact ⟨rfl, .refl _⟩
      · refine ⟨rfl, .set h0 ?_⟩
        unfold Epic.addFrameSet at ha
        split at ha
        · cases ha
        · injection ha with ha; rw [← ha]; exact ⟨rfl, rfl, rfl, rfl, rfl, rfl, rfl⟩
  | addStrategy e0 s =>
    simp only [World.exec, World.addStrategy]
    rcases h0 : w.epics[e0]? with _ | ep0
    · exact ⟨rfl, .refl _⟩
    · rcases hs : w.strategies[s]? with _ | st
      · exact ⟨rfl, .refl _⟩
      · simp only
        split
        · exact ⟨rfl, .refl _⟩
        · simp only [World.modEpic, World.modStrategy]
          refine ⟨trivial, ?_⟩
          rw [← set_eq_modify _ _ _ _ h0]
          exact .set h0 ⟨rfl, rfl, rfl, rfl, rfl, rfl, rfl⟩
  | addIndicator e0 ref ind =>
    simp only [World.exec, World.addIndicator]
    rcases h0 : w.epics[e0]? with _ | ep0
    · exact ⟨rfl, .refl _⟩
    · simp only
      split
      · exact ⟨rfl, .refl _⟩
      · exact ⟨rfl, .set h0 ⟨rfl, rfl, rfl, rfl, rfl, rfl, rfl⟩⟩

end
end Estrade
