import Verif.Props.DayTrade
import Verif.Props.Marked

/-!
# Strategies that close losing trades
-/

set_option linter.style.haveILetI false
set_option linter.unusedSectionVars false
set_option autoImplicit false

namespace Estrade

section
variable [Arith]

/-- Spec: the loop `for trade in reversed(self.trades): if trade is open, on this epic and trade.result < -limit: epic.close_trade(trade)` over the
given trades, and what comes after it. -/
def Spec.stopLoop (L : ℚ) (e : ℕ) (rest : World → Prog) : List ℕ → World → Prog
  | [], w => rest w
  | i :: l, w =>
    match w.trades[i]? with
    | none => Spec.stopLoop L e rest l w
    | some t =>
      if t.epic = e ∧ t.closed = false ∧ t.result < -L then
        .act (.closeTrade e i none) (fun w x => match x with
          | none => Spec.stopLoop L e rest l w
          | some err => .raise err)
      else Spec.stopLoop L e rest l w

/-- Spec: `on_every_tick` of strategy `s` begins with that loop over all its trades. -/
def Spec.StopLoss (env : Env) (s : ℕ) (L : ℚ) : Prop :=
  ∀ e w st, w.strategies[s]? = some st → ∃ rest, env s .everyTick e w = Spec.stopLoop L e rest st.trades.reverse w

/-- The allowance of a trade of `q` units: the limit, or the spread if that is more. -/
def allowance (L σ : ℚ) (q : ℤ) : ℚ := max L (q * σ)

/-- Trades of `s` on `e`: results above the allowance less `g` per unit; under `F`, open ones above the allowance. -/
structure Limited (F : Prop) (s e : ℕ) (L σ g : ℚ) (t : Trade) : Prop where
  cents : IsCent t.openValue
  floor : -(allowance L σ t.openQty + t.openQty * g) ≤ t.result
  stopped : F → t.openedQty ≠ 0 → -allowance L σ t.openQty ≤ t.result

/-- The last tick of `e` has prices in cents and a spread of at most `σ`. -/
def TightAt (E : List Epic) (e : ℕ) (σ : ℚ) : Prop :=
  ∀ ep, E[e]? = some ep → IsCent ep.lastTick.bid ∧ IsCent ep.lastTick.ask ∧ ep.lastTick.ask - ep.lastTick.bid ≤ σ

/-- What the trades satisfy. -/
def Guarded (F : Prop) (s e : ℕ) (L σ g : ℚ) (E : List Epic) (t : Trade) : Prop :=
  Marked E t ∧ (t.strategy = some s → t.epic = e → Limited F s e L σ g t)

theorem closeFromTick_neutral (hE : Exact) {t : Trade} {k : Tick} {q : Option ℤ}
    (h : t.openedQty ≠ 0 → t.curClose = Spec.exitQuote t.dir k) : (t.closeFromTick k q).result = t.result := by
  by_cases ho : t.openedQty = 0
  · unfold Trade.closeFromTick
    rw [close_at_current hE, updateFromTick_eq]
    unfold Trade.update
    rw [if_pos (t.closed_iff.mpr ho)]
  · exact closeFromTick_result hE t k q (h ho)

theorem result_closeStatus (hE : Exact) (t : Trade) (k : ℕ) (st : Status) :
    ({ t with closes := (t.closes.modify k (fun c => { c with status := st })) } : Trade).result = t.result := by
  rw [result_split hE, result_split hE]
  unfold Spec.realised Spec.unrealised
  dsimp only
  rw [map_modify_eq _ _ _ _ (by intro x; rfl), map_modify_eq _ _ _ _ (by intro x; rfl)]

theorem guarded_quoteInv (hE : Exact) {F : Prop} {s e : ℕ} {L σ g : ℚ} (hg : 0 ≤ g) {E : List Epic} (hz : ZeroTogether E) (ht : TightAt E e σ) :
    QuoteInv True E (Guarded F s e L σ g E) := by
  have hM := marked_quoteInv hz
  refine ⟨?_, ?_, fun _ t h => h.1.1.1, fun t st h => ⟨hM.status t st h.1, fun h1 h2 => ⟨(h.2 h1 h2).cents, (h.2 h1 h2).floor, (h.2 h1 h2).stopped⟩⟩, ?_⟩
  · intro e' ep d q s' t n hep hop hn _
    have hm := hM.fresh e' ep d q s' t n hep hop hn False.elim
    refine ⟨hm, fun h1 h2 => ?_⟩
    obtain ⟨f1, f2, f3, f4, -⟩ := openFromTick_fresh hop
    change t.epic = e at h2
    rw [f1] at h2
    subst h2
    obtain ⟨c1, c2, c3⟩ := ht ep hep
    have hn0 : (0 : ℚ) ≤ n := by exact_mod_cast (hn trivial).1
    have hov : IsCent t.openValue ∧ (t.dir = .buy → t.openValue = ep.lastTick.ask) ∧ (t.dir = .sell → t.openValue = ep.lastTick.bid) := by
      unfold Trade.openFromTick at hop
      split at hop
      · injection hop with hop; subst hop; exact ⟨c2, fun _ => rfl, (fun h => by cases h)⟩
      · injection hop with hop; subst hop; exact ⟨c1, (fun h => by cases h), fun _ => rfl⟩
      · cases hop
    have hres : -(n * σ) ≤ ({ t with openQty := n } : Trade).result := by
      rw [result_split hE]
      unfold Spec.realised Spec.unrealised
      simp only [f4, List.map_nil, List.sum_nil, sub_zero, zero_add]
      by_cases h0 : n = 0
      · subst h0; simp
      · have hcur : t.curClose = Spec.exitQuote t.dir ep.lastTick :=
          hm.2 (by unfold Trade.openedQty Trade.closedQty; simp [f4, h0]) ep (by show E[t.epic]? = _; rw [f1]; exact hep)
        rw [hcur]
        have : cent (Spec.move t.dir t.openValue (Spec.exitQuote t.dir ep.lastTick)) = -(ep.lastTick.ask - ep.lastTick.bid) := by
          rcases hd : t.dir with _ | _
          · rw [hov.2.1 hd]; show cent (ep.lastTick.bid - ep.lastTick.ask) = _
            rw [(c1.sub c2).cent]; ring
          · rw [hov.2.2 hd]; show cent (ep.lastTick.bid - ep.lastTick.ask) = _
            rw [(c1.sub c2).cent]; ring
        rw [this]
        have := mul_le_mul_of_nonneg_left c3 hn0
        linarith
    have hA : (n : ℚ) * σ ≤ allowance L σ n := le_max_right _ _
    have hng : 0 ≤ (n : ℚ) * g := mul_nonneg hn0 hg
    exact ⟨hov.1, by show -(allowance L σ n + n * g) ≤ _; linarith, fun _ _ => by show -allowance L σ n ≤ _; linarith⟩
  · intro t ep q hep hq h
    refine ⟨hM.close t ep q hep hq h.1, fun h1 h2 => ?_⟩
    have hk := kept_closeFromTick t ep.lastTick q
    rw [hk.strategy] at h1
    rw [hk.epic] at h2
    obtain ⟨l1, l2, l3⟩ := h.2 h1 h2
    have hr := closeFromTick_neutral hE (t := t) (k := ep.lastTick) (q := q) (fun ho => h.1.2 ho ep hep)
    have hb := Trade.closeQty_bounds h.1.1.1 (q := q) (hq trivial)
    refine ⟨by rw [hk.openValue]; exact l1, by rw [hk.openQty, hr]; exact l2, fun hF ho => ?_⟩
    rw [hk.openQty, hr]
    refine l3 hF (fun h0 => ho ?_)
    rw [closeFromTick_openedQty]
    omega
  · intro t k st h
    have hres := result_closeStatus hE t k st
    refine ⟨hM.closeStatus t k st h.1, fun h1 h2 => ?_⟩
    obtain ⟨l1, l2, l3⟩ := h.2 h1 h2
    refine ⟨l1, by rw [hres]; exact l2, fun hF ho => ?_⟩
    rw [hres]
    refine l3 hF (fun h0 => ho ?_)
    rw [← h0]
    unfold Trade.openedQty Trade.closedQty
    simp only
    rw [map_modify_eq _ _ _ _ (by intro x; rfl)]

/-- The invariant of worlds. -/
structure GuardedInv (F : Prop) (s e : ℕ) (L σ g : ℚ) (w : World) : Prop where
  marked : MarkedInv w
  tight : TightAt w.epics e σ
  mine : ∀ t ∈ w.trades, t.strategy = some s → t.epic = e → Limited F s e L σ g t

theorem GuardedInv.guarded {F : Prop} {s e : ℕ} {L σ g : ℚ} {w : World} (h : GuardedInv F s e L σ g w) :
    ∀ t ∈ w.trades, Guarded F s e L σ g w.epics t := fun t ht => ⟨h.marked.marked t ht, h.mine t ht⟩

theorem GuardedInv.weaken {F : Prop} {s e : ℕ} {L σ g : ℚ} {w : World} (h : GuardedInv F s e L σ g w) : GuardedInv False s e L σ g w :=
  ⟨h.marked, h.tight, fun t ht h1 h2 => ⟨(h.mine t ht h1 h2).cents, (h.mine t ht h1 h2).floor, fun x => x.elim⟩⟩

theorem step_guarded (hE : Exact) {F : Prop} {s e : ℕ} {L σ g : ℚ} (hg : 0 ≤ g) (w : World) (o : Op) (ho : o.Indirect ∧ o.Valid)
    (hw : GuardedInv F s e L σ g w) : GuardedInv F s e L σ g (w.step o).1 := by
  have he := (step_epics w o).1
  refine ⟨step_marked w o ho hw.marked, by rw [he]; exact hw.tight, fun t ht => ?_⟩
  refine (step_quote (guarded_quoteInv hE (F := F) (s := s) (e := e) (L := L) (σ := σ) hg hw.marked.zero hw.tight) rfl hw.guarded o ho.1.notDirect ?_
    (fun _ => ho.2) False.elim t ht).2
  rintro i v rfl
  exact ho.1.elim

theorem note_guarded {F : Prop} {s e : ℕ} {L σ g : ℚ} (u : World) (s' e' : ℕ) (cb : Cb) (hu : GuardedInv F s e L σ g u) :
    GuardedInv F s e L σ g { u with log := u.log ++ [.notify s' e' cb] } := ⟨note_marked u s' e' cb hu.marked, hu.tight, hu.mine⟩

theorem switch_guarded {F : Prop} {s e : ℕ} {L σ g : ℚ} (u : World) (s' : ℕ) (st st' : Strategy) (hs' : u.strategies[s']? = some st)
    (ht' : st'.trades = st.trades) (hu : GuardedInv F s e L σ g u) : GuardedInv F s e L σ g { u with strategies := u.strategies.set s' st' } :=
  ⟨switch_marked u s' st st' hs' ht' hu.marked, hu.tight, hu.mine⟩

theorem prog_guarded (hE : Exact) {F : Prop} {s e : ℕ} {L σ g : ℚ} (hg : 0 ≤ g) (p : Prog) (hp : p.All (fun o => o.Indirect ∧ o.Valid)) (w : World)
    (hw : GuardedInv F s e L σ g w) : GuardedInv F s e L σ g (p.run w).1 := prog_inv (step_guarded hE hg) p hp w hw

theorem execStrategies_guarded (hE : Exact) {F : Prop} {s e : ℕ} {L σ g : ℚ} (hg : 0 ≤ g) {env : Env}
    (henv : ∀ s cb e w, (env s cb e w).All (fun o => o.Indirect ∧ o.Valid)) (l : List ℕ) (w : World) (e' : ℕ) (b : Bool) (dt : DT)
    (hw : GuardedInv F s e L σ g w) : GuardedInv F s e L σ g (execStrategies env e' b dt w l).1 :=
  execStrategies_inv (step_guarded hE hg) note_guarded switch_guarded henv l w e' b dt hw

/-! ## The loop -/

/-- Trades of `s` on `e` outside the list `l` are closed or above the limit. -/
def Checked (s e : ℕ) (L : ℚ) (l : List ℕ) (w : World) : Prop :=
  ∀ (i : ℕ) t, w.trades[i]? = some t → t.strategy = some s → t.epic = e → i ∉ l → t.openedQty ≠ 0 → -L ≤ t.result

theorem Checked.guarded {F : Prop} {s e : ℕ} {L σ g : ℚ} {w : World} (h : GuardedInv F s e L σ g w) (hc : Checked s e L [] w) :
    GuardedInv True s e L σ g w := by
  refine ⟨h.marked, h.tight, fun t ht h1 h2 => ⟨(h.mine t ht h1 h2).cents, (h.mine t ht h1 h2).floor, fun _ ho => ?_⟩⟩
  obtain ⟨i, hi⟩ := List.getElem?_of_mem ht
  have := hc i t hi h1 h2 (by simp) ho
  have : L ≤ allowance L σ t.openQty := le_max_left _ _
  linarith

theorem stopLoop_guarded (hE : Exact) {s e : ℕ} {L σ g : ℚ} (hg : 0 ≤ g) (rest : World → Prog) (l : List ℕ) : ∀ (w : World),
    (Spec.stopLoop L e rest l w).All (fun o => o.Indirect ∧ o.Valid) → GuardedInv False s e L σ g w → Checked s e L l w →
    GuardedInv True s e L σ g ((Spec.stopLoop L e rest l w).run w).1 := by
  induction l with
  | nil => intro w hp hw hc; exact prog_guarded hE hg _ hp w (hc.guarded hw)
  | cons i l ih =>
    intro w hp hw hc
    unfold Spec.stopLoop at hp ⊢
    rcases hi : w.trades[i]? with _ | t
    · rw [hi] at hp
      refine ih w hp hw (fun j u hj h1 h2 h3 => hc j u hj h1 h2 (fun hm => ?_))
      rcases List.mem_cons.mp hm with rfl | hm
      · rw [hi] at hj; cases hj
      · exact h3 hm
    · rw [hi] at hp
      dsimp only at hp ⊢
      by_cases hb : t.epic = e ∧ t.closed = false ∧ t.result < -L
      · rw [if_pos hb] at hp ⊢
        obtain ⟨ep, hep⟩ := hw.marked.reg.epicOk i t hi
        have hw1 := step_guarded hE hg w _ hp.1 hw
        have hstep : w.step (.closeTrade e i none) = ((w.setTrade i (t.closeFromTick ep.lastTick none)).modProvider ep.provider
            (fun pr => pr.spawn (.closing i t.closes.length)), none) := by
          simp only [World.step, World.closeTrade]
          rw [← hb.1, hep]
          simp only [World.closeOn, hi, hep]
          rfl
        have hp2 := hp.2 (w.step (.closeTrade e i none)).1 (w.step (.closeTrade e i none)).2
        unfold Prog.run
        dsimp only
        rw [hstep] at hw1 hp2 ⊢
        dsimp only at hw1 hp2 ⊢
        refine ih _ hp2 hw1 (fun j u hj h1 h2 h3 h4 => ?_)
        change (w.trades.set i _)[j]? = some u at hj
        rw [List.getElem?_set] at hj
        by_cases hij : i = j
        · subst hij
          rw [if_pos rfl, if_pos (getElem?_lt hi)] at hj
          injection hj with hj
          subst hj
          exact absurd (by rw [closeFromTick_openedQty, Trade.closeQty_none]; omega) h4
        · rw [if_neg hij] at hj
          exact hc j u hj h1 h2 (by simp [Ne.symm hij, h3]) h4
      · rw [if_neg hb] at hp ⊢
        refine ih w hp hw (fun j u hj h1 h2 h3 h4 => ?_)
        by_cases hij : j = i
        · subst hij
          rw [hi] at hj; injection hj with hj; subst hj
          by_contra hlt
          refine hb ⟨h2, ?_, lt_of_not_ge hlt⟩
          rw [Bool.eq_false_iff]
          intro hcl
          exact h4 (t.closed_iff.mp hcl)
        · exact hc j u hj h1 h2 (by simp [hij, h3]) h4

/-- `on_every_tick` of `s`. -/
theorem call_guarded (hE : Exact) {s e : ℕ} {L σ g : ℚ} (hg : 0 ≤ g) {env : Env} (henv : ∀ s cb e w, (env s cb e w).All (fun o => o.Indirect ∧ o.Valid))
    (hstop : Spec.StopLoss env s L) {w : World} (hs : s < w.strategies.length) (hw : GuardedInv False s e L σ g w) :
    GuardedInv True s e L σ g (w.call env s .everyTick e).1 := by
  unfold World.call
  have hst : w.strategies[s]? = some _ := List.getElem?_eq_getElem hs
  generalize w.strategies[s] = st at hst
  obtain ⟨rest, hr⟩ := hstop e { w with log := w.log ++ [.notify s e .everyTick] } st hst
  have hall := henv s .everyTick e { w with log := w.log ++ [.notify s e .everyTick] }
  dsimp only
  rw [hr] at hall ⊢
  have hw' := note_guarded w s e .everyTick hw
  refine stopLoop_guarded hE hg rest _ _ hall hw' (fun i t hi h1 h2 h3 h4 => ?_)
  exfalso
  have hb := (hw.marked.marked t (List.mem_of_getElem? hi)).1
  obtain ⟨p, pr, g1, g2⟩ := hw.marked.reg.listed i t hi (by omega)
  exact h3 (List.mem_reverse.mpr ((hw.marked.reg.stratOf i t s st hi hst).mpr ⟨h1, p, pr, g1, g2⟩))

/-- The turn of `s` on a tick of `e`, if nothing raises. -/
theorem turn_guarded (hE : Exact) {s e : ℕ} {L σ g : ℚ} (hg : 0 ≤ g) {env : Env} (henv : ∀ s cb e w, (env s cb e w).All (fun o => o.Indirect ∧ o.Valid))
    (hstop : Spec.StopLoss env s L) {w : World} (hf : StratP w s Free) (hu : Spec.Untouched env s) (hw : GuardedInv False s e L σ g w) (b : Bool) (dt : DT)
    (hn : (w.execStrategy env e s b dt).2 = none) : GuardedInv True s e L σ g (w.execStrategy env e s b dt).1 := by
  obtain ⟨st, h1, h2⟩ := hf
  unfold World.execStrategy at hn ⊢
  rw [h1] at hn ⊢
  dsimp only at hn ⊢
  rw [if_pos ((isActive_iff st dt).mpr (h2.active dt))] at hn ⊢
  have hw1 := switch_guarded w s st _ h1 (isActive_trades st dt) hw
  have hf1 : StratP ({ w with strategies := w.strategies.set s (st.isActive dt).2 } : World) s Free :=
    ⟨_, by show (w.strategies.set s _)[s]? = _; rw [List.getElem?_set, if_pos rfl, if_pos (getElem?_lt h1)], h2.isActive dt⟩
  revert hn hw1 hf1
  generalize ({ w with strategies := w.strategies.set s (st.isActive dt).2 } : World) = w1
  intro hn hw1 hf1
  have hk := hu.keeps (P := Free) free_switches
  have hif : ∀ (u : World) (c : Bool) (cb : Cb), GuardedInv False s e L σ g u ∧ StratP u s Free →
      GuardedInv False s e L σ g (u.callIf env c s cb e).1 ∧ StratP (u.callIf env c s cb e).1 s Free := by
    intro u c cb hu
    unfold World.callIf
    split_ifs
    · exact ⟨prog_guarded hE hg _ (henv s cb e _) _ (note_guarded u s e cb hu.1), call_keeps hk u hu.2 s cb e⟩
    · exact hu
  have hthen : ∀ (r : World × Option PyErr) (f : World → World × Option PyErr), (andThen r f).2 = none → (GuardedInv False s e L σ g r.1 ∧ StratP r.1 s Free) →
      (∀ u, (f u).2 = none → (GuardedInv False s e L σ g u ∧ StratP u s Free) → GuardedInv True s e L σ g (f u).1) → GuardedInv True s e L σ g (andThen r f).1 := by
    intro r f hr ha hf
    rcases andThen_cases r f with ⟨-, h⟩ | ⟨hne, h⟩
    · rw [h] at hr ⊢; exact hf _ hr ha
    · rw [h] at hr; exact absurd hr hne
  unfold World.notifyAll at hn ⊢
  refine hthen _ _ hn (hif _ _ _ ⟨hw1, hf1⟩) (fun u hn hu => ?_)
  refine hthen _ _ hn (hif _ _ _ hu) (fun u hn hu => ?_)
  refine hthen _ _ hn (hif _ _ _ hu) (fun u hn hu => ?_)
  obtain ⟨st', g1, -⟩ := hu.2
  exact call_guarded hE hg henv hstop (getElem?_lt g1) hu.1

theorem exec_guarded (hE : Exact) {s e : ℕ} {L σ g : ℚ} (hg : 0 ≤ g) {env : Env} (henv : ∀ s cb e w, (env s cb e w).All (fun o => o.Indirect ∧ o.Valid))
    (hstop : Spec.StopLoss env s L) (hu : Spec.Untouched env s) {b : Bool} {dt : DT} (l : List ℕ) : ∀ {w : World}, StratP w s Free →
    GuardedInv False s e L σ g w → s ∈ l → (execStrategies env e b dt w l).2 = none → GuardedInv True s e L σ g (execStrategies env e b dt w l).1 := by
  induction l with
  | nil => intro w _ _ h; cases h
  | cons s' rest ih =>
    intro w hf hw hm hn
    have hf1 : StratP (w.execStrategy env e s' b dt).1 s Free :=
      execStrategy_keeps (hu.keeps free_switches) (fun st hst => hst.isActive dt) w hf e s' b
    have hw1 : GuardedInv False s e L σ g (w.execStrategy env e s' b dt).1 := by
      have := execStrategies_guarded hE hg henv [s'] w e b dt hw
      unfold execStrategies at this
      rcases andThen_cases (w.execStrategy env e s' b dt) (fun w => execStrategies env e b dt w []) with ⟨-, hh⟩ | ⟨-, hh⟩
      · rw [hh] at this; exact this
      · rw [hh] at this; exact this
    unfold execStrategies at hn ⊢
    rcases andThen_cases (w.execStrategy env e s' b dt) (fun w => execStrategies env e b dt w rest) with ⟨h0, hh⟩ | ⟨hne, hh⟩
    · rw [hh] at hn ⊢
      by_cases hs : s' = s
      · subst hs
        exact execStrategies_guarded hE hg henv rest _ e b dt (turn_guarded hE hg henv hstop hf hu hw b dt h0)
      · refine ih hf1 hw1 ?_ hn
        rcases List.mem_cons.mp hm with hm | hm
        · exact absurd hm.symm hs
        · exact hm
    · rw [hh] at hn; exact absurd hn hne

/-! ## Ticks -/

theorem onNewTick_holds (env : Env) {w : World} {e : ℕ} {k : Tick} {ep : Epic} (hep : w.epics[e]? = some ep)
    (hlt : (Spec.localTick ep.zone k).dt.lt ep.lastTick.dt = false) (hfs : (ep.accept (Spec.localTick ep.zone k)).2 = none) :
    w.onNewTick env e k = execStrategies env e ep.marketOpen (Spec.localTick ep.zone k).dt
      (({ w with epics := w.epics.set e (ep.accept (Spec.localTick ep.zone k)).1, log := w.log ++ [.accepted e (Spec.localTick ep.zone k)] } : World).updateOpenTrades
        ep.provider (Spec.localTick ep.zone k)) (ep.strategies.map Prod.snd) := by
  unfold World.onNewTick
  simp only [hep]
  change (if (Spec.localTick ep.zone k).dt.lt ep.lastTick.dt = true then _ else _) = _
  rw [hlt]
  simp only [Bool.false_eq_true, if_false]
  change (match (ep.accept (Spec.localTick ep.zone k)).2 with
    | some err => _
    | none => _) = _
  rw [hfs]
  rfl

/-- A move of the market by at most `g`. -/
theorem Limited.repriced (hE : Exact) {s e : ℕ} {L σ g : ℚ} {t : Trade} {k k' : Tick} (h : Limited True s e L σ g t)
    (hq : 0 ≤ t.openedQty ∧ t.openedQty ≤ t.openQty) (ho : t.openedQty ≠ 0) (hc : t.curClose = Spec.exitQuote t.dir k)
    (c1 : IsCent k.bid) (c2 : IsCent k.ask) (c3 : IsCent k'.bid) (c4 : IsCent k'.ask) (m1 : |k'.bid - k.bid| ≤ g) (m2 : |k'.ask - k.ask| ≤ g) (hg : 0 ≤ g) :
    Limited False s e L σ g (t.updateFromTick k') := by
  have hk := kept_update t (Spec.exitQuote t.dir k')
  rw [updateFromTick_eq]
  refine ⟨by rw [hk.openValue]; exact h.cents, ?_, fun x => x.elim⟩
  rw [hk.openQty]
  have h1 := h.stopped trivial ho
  have hcl : t.closed ≠ true := fun hc => ho (t.closed_iff.mp hc)
  have e1 : (t.update (Spec.exitQuote t.dir k')).result = t.result + t.openedQty * (Spec.move t.dir t.openValue (Spec.exitQuote t.dir k') -
      Spec.move t.dir t.openValue (Spec.exitQuote t.dir k)) := by
    rw [result_exact hE, result_exact hE, Trade.update_openedQty, hk.dir, hk.openValue, Trade.update_curClose, if_neg hcl, hc]
    have hclosed : (t.update (Spec.exitQuote t.dir k')).closedResult = t.closedResult := by
      unfold Trade.closedResult
      rw [Trade.update_closes, hk.dir, hk.openValue]
    have x1 : IsCent (Spec.exitQuote t.dir k) := by cases t.dir <;> assumption
    have x2 : IsCent (Spec.exitQuote t.dir k') := by cases t.dir <;> assumption
    rw [hclosed, cent_move h.cents x1, cent_move h.cents x2]
    ring
  rw [e1]
  have hm : -g ≤ Spec.move t.dir t.openValue (Spec.exitQuote t.dir k') - Spec.move t.dir t.openValue (Spec.exitQuote t.dir k) := by
    have a1 := abs_le.mp m1
    have a2 := abs_le.mp m2
    rcases t.dir with _ | _
    · show -g ≤ (k'.bid - _) - (k.bid - _); linarith
    · show -g ≤ (_ - k'.ask) - (_ - k.ask); linarith
  have q0 : (0 : ℚ) ≤ t.openedQty := by exact_mod_cast hq.1
  have q1 : (t.openedQty : ℚ) ≤ t.openQty := by exact_mod_cast hq.2
  have b1 := mul_le_mul_of_nonneg_left hm q0
  have b2 := mul_le_mul_of_nonneg_right q1 hg
  linarith

/-- The state in which the callbacks of a tick start. -/
theorem accept_guarded (hE : Exact) {s e : ℕ} {L σ g : ℚ} (hg : 0 ≤ g) {w : World} (hw : GuardedInv True s e L σ g w) {e' : ℕ} {ep : Epic} {k' : Tick}
    (hep : w.epics[e']? = some ep) (hquote : k'.bid = 0 ↔ k'.ask = 0)
    (htight : e' = e → IsCent k'.bid ∧ IsCent k'.ask ∧ k'.ask - k'.bid ≤ σ ∧ |k'.bid - ep.lastTick.bid| ≤ g ∧ |k'.ask - ep.lastTick.ask| ≤ g) :
    GuardedInv (e' ≠ e) s e L σ g (({ w with epics := w.epics.set e' (ep.accept k').1, log := w.log ++ [.accepted e' k'] } : World).updateOpenTrades
        ep.provider k') := by
  have hM := accept_marked (k' := k') hw.marked hep hquote rfl
  set w0 : World := { w with epics := w.epics.set e' (ep.accept k').1, log := w.log ++ [.accepted e' k'] } with hw0
  obtain ⟨pr, hpr⟩ : ∃ pr, w.providers[ep.provider]? = some pr :=
    ⟨_, List.getElem?_eq_getElem (hw.marked.ok ep (List.mem_of_getElem? hep))⟩
  have hreg0 : RegInv w0 := hw.marked.reg.quiet ⟨rfl, rfl, rfl, KeptAll.refl _⟩ (map_provider_set _ _ _ _ hep rfl)
  obtain ⟨r1, -⟩ := updateOpenTrades_rest w0 ep.provider k'
  refine ⟨hM, ?_, ?_⟩
  · rw [r1]
    intro x hx
    change (w.epics.set e' _)[e]? = some x at hx
    rw [List.getElem?_set] at hx
    by_cases he : e' = e
    · rw [if_pos he, if_pos (getElem?_lt hep)] at hx
      injection hx with hx
      subst hx
      obtain ⟨a, b, c, -⟩ := htight he
      exact ⟨a, b, c⟩
    · rw [if_neg he] at hx
      exact hw.tight x hx
  · intro t' ht' h1 h2
    obtain ⟨i, hi⟩ := List.getElem?_of_mem ht'
    rw [updateOpenTrades_get hreg0 (show w0.providers[ep.provider]? = some pr from hpr)] at hi
    rcases hti : w.trades[i]? with _ | t
    · rw [show w0.trades[i]? = none from hti] at hi; cases hi
    · rw [show w0.trades[i]? = some t from hti] at hi
      simp only [Option.map_some, Option.some.injEq] at hi
      have hmk := hw.marked.marked t (List.mem_of_getElem? hti)
      by_cases hc : i ∈ pr.trades ∧ t.openedQty ≠ 0
      · rw [if_pos hc] at hi
        subst hi
        have hk := kept_update t (Spec.exitQuote t.dir k')
        rw [updateFromTick_eq, hk.strategy] at h1
        rw [updateFromTick_eq, hk.epic] at h2
        obtain ⟨ep', hep'⟩ := hw.marked.reg.epicOk i t hti
        have hp := hw.marked.reg.provOf i t _ pr hti hpr hc.1
        unfold World.providerOf at hp
        rw [hep'] at hp
        have hte : t.epic = e' := epic_of_provider hw.marked.own hep' hep (Option.some.inj hp)
        have he : e' = e := by rw [← hte]; exact h2
        subst he
        obtain ⟨a, b, -, c, d⟩ := htight rfl
        obtain ⟨x, y, -⟩ := hw.tight ep hep
        have := (hw.mine t (List.mem_of_getElem? hti) h1 h2).repriced hE hmk.1 hc.2 (hmk.2 hc.2 ep (by rw [hte]; exact hep)) x y a b c d hg
        exact ⟨this.cents, this.floor, fun hne => absurd rfl hne⟩
      · rw [if_neg hc] at hi
        subst hi
        have := hw.mine t (List.mem_of_getElem? hti) h1 h2
        exact ⟨this.cents, this.floor, fun _ => this.stopped trivial⟩

end
end Estrade
