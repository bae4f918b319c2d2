import Verif.Lemmas.Openings
import Verif.Lemmas.Netting

/-!
# Open trades carry the closing side of the last tick of their epic
-/

set_option linter.unusedSectionVars false
set_option autoImplicit false

namespace Estrade

/-- Operations other than a direct `trade.update` or `trade.close`. -/
def Op.Indirect : Op → Prop
  | .close _ _ _ _ => False
  | .update _ _ => False
  | _ => True

theorem Op.Indirect.notDirect {o : Op} (h : o.Indirect) : o.NotDirect := by cases o <;> trivial

section
variable [Arith]

/-- Quantities are not negative and an open trade is valued at the last tick of its epic. -/
def Marked (E : List Epic) (t : Trade) : Prop :=
  (0 ≤ t.openedQty ∧ t.openedQty ≤ t.openQty) ∧
    (t.openedQty ≠ 0 → ∀ ep, E[t.epic]? = some ep → t.curClose = Spec.exitQuote t.dir ep.lastTick)

/-- No last tick has exactly one side equal to 0. -/
def ZeroTogether (E : List Epic) : Prop := ∀ ep ∈ E, ep.lastTick.bid = 0 ↔ ep.lastTick.ask = 0

theorem marked_fresh {E : List Epic} (hE : ZeroTogether E) {e : ℕ} {ep : Epic} {d : Option Dir} {q : ℤ} {s : Option ℕ} {t : Trade} {n : ℤ}
    (hep : E[e]? = some ep) (ht : Trade.openFromTick ep.lastTick e d q s = .ok t) (hn : 0 ≤ n) : Marked E { t with openQty := n } := by
  have hz := hE ep (List.mem_of_getElem? hep)
  have hf := openFromTick_fresh ht
  refine ⟨?_, fun _ ep' hep' => ?_⟩
  · unfold Trade.openedQty Trade.closedQty
    simp only [hf.2.2.2.1, List.map_nil, List.sum_nil, sub_zero]
    exact ⟨hn, le_refl _⟩
  · simp only at hep'
    rw [hf.1, hep] at hep'
    injection hep' with hep'
    subst hep'
    unfold Trade.openFromTick at ht
    split at ht
    · injection ht with ht; subst ht
      show (if ep.lastTick.bid = 0 then ep.lastTick.ask else ep.lastTick.bid) = ep.lastTick.bid
      split_ifs with h0
      · rw [h0, hz.mp h0]
      · rfl
    · injection ht with ht; subst ht
      show (if ep.lastTick.ask = 0 then ep.lastTick.bid else ep.lastTick.ask) = ep.lastTick.ask
      split_ifs with h0
      · rw [h0, hz.mpr h0]
      · rfl
    · cases ht

theorem marked_quoteInv {E : List Epic} (hE : ZeroTogether E) : QuoteInv True E (Marked E) := by
  refine ⟨?_, ?_, fun _ t h => h.1.1, fun t st h => h, ?_⟩
  · intro e ep d q s t n hep ht hn _
    exact marked_fresh hE hep ht (hn trivial).1
  · intro t ep q hep hq ht
    have hb := Trade.closeQty_bounds ht.1.1 (q := q) (hq trivial)
    have ho : (t.closeFromTick ep.lastTick q).openedQty = t.openedQty - t.closeQty q := closeFromTick_openedQty _ _ _
    have hk := kept_closeFromTick t ep.lastTick q
    have hb' := ht.1.2
    refine ⟨by rw [ho, hk.openQty]; omega, fun hne ep' hep' => ?_⟩
    have hopen : t.openedQty ≠ 0 := by intro h0; rw [ho] at hne; omega
    rw [hk.epic, hep] at hep'
    injection hep' with hep'
    subst hep'
    rw [hk.dir]
    show (t.updateFromTick ep.lastTick).curClose = _
    rw [updateFromTick_eq, Trade.update_curClose, if_neg]
    intro hc; exact hopen (t.closed_iff.mp hc)
  · intro t k st h
    unfold Marked at h ⊢
    have : ({ t with closes := (t.closes.modify k (fun c => { c with status := st })) } : Trade).openedQty = t.openedQty := by
      unfold Trade.openedQty Trade.closedQty
      simp only
      rw [map_modify_eq]; intro x; rfl
    rw [this]; exact h

theorem ClocksKept.back {l l' : List Epic} (h : ClocksKept l l') {e : ℕ} {x : Epic} (hx : l'[e]? = some x) :
    ∃ y, l[e]? = some y ∧ SameClock x y := by
  have hlt := getElem?_lt hx
  rw [h.1] at hlt
  obtain ⟨x', g1, g2⟩ := h.2 e _ (List.getElem?_eq_getElem hlt)
  rw [hx] at g1; injection g1 with g1; subst g1
  exact ⟨_, List.getElem?_eq_getElem hlt, g2⟩

theorem epic_of_provider {l : List Epic} (h : (l.map Epic.provider).Nodup) {e e' : ℕ} {ep ep' : Epic}
    (h1 : l[e]? = some ep) (h2 : l[e']? = some ep') (h3 : ep.provider = ep'.provider) : e = e' := by
  refine (List.getElem?_inj (l := l.map Epic.provider) (by simpa using getElem?_lt h1) h).mp ?_
  simp [h1, h2, h3]

/-- The invariant of runs in which every epic has its own provider. -/
structure MarkedInv (w : World) : Prop where
  ok : EpicsOk w
  reg : RegInv w
  own : (w.epics.map Epic.provider).Nodup
  zero : ZeroTogether w.epics
  marked : ∀ t ∈ w.trades, Marked w.epics t

theorem step_marked (w : World) (o : Op) (ho : o.Indirect ∧ o.Valid) (hw : MarkedInv w) : MarkedInv (w.step o).1 := by
  have hs := step_steps (V := True) (o := o) hw.ok (fun _ => ho.2)
  have he := (step_epics w o).1
  refine ⟨hs.epicsOk hw.ok, WSteps.inv (fun a b ha hb => hb.regInv ha) hs.lift hw.reg, by rw [he]; exact hw.own,
    by rw [he]; exact hw.zero, ?_⟩
  rw [he]
  refine step_quote (marked_quoteInv hw.zero) rfl hw.marked o ho.1.notDirect ?_ (fun _ => ho.2)
  rintro i v rfl
  exact ho.1.elim

theorem note_marked (u : World) (s e' : ℕ) (cb : Cb) (hu : MarkedInv u) : MarkedInv { u with log := u.log ++ [.notify s e' cb] } :=
  ⟨hu.ok, hu.reg.quiet ⟨rfl, rfl, rfl, KeptAll.refl _⟩ rfl, hu.own, hu.zero, hu.marked⟩

theorem switch_marked (u : World) (s : ℕ) (st st' : Strategy) (hs' : u.strategies[s]? = some st) (ht' : st'.trades = st.trades)
    (hu : MarkedInv u) : MarkedInv { u with strategies := u.strategies.set s st' } := by
  refine ⟨hu.ok, hu.reg.quiet ⟨rfl, ?_, rfl, KeptAll.refl _⟩ rfl, hu.own, hu.zero, hu.marked⟩
  show (u.strategies.set s st').map Strategy.trades = _
  rw [set_eq_modify u.strategies s st (fun _ => st') hs']
  apply List.ext_getElem?
  intro n
  simp only [List.getElem?_map, List.getElem?_modify]
  by_cases hn : s = n
  · subst hn; simp [hs', ht']
  · rcases u.strategies[n]? with _ | y
    · rfl
    · simp [hn]

theorem execStrategies_marked {env : Env} (henv : ∀ s cb e w, (env s cb e w).All (fun o => o.Indirect ∧ o.Valid)) {w : World}
    (hw : MarkedInv w) (l : List ℕ) (e : ℕ) (b : Bool) (dt : DT) : MarkedInv (execStrategies env e b dt w l).1 := by
  refine execStrategies_inv (J := MarkedInv) (Q := fun o => o.Indirect ∧ o.Valid) step_marked note_marked switch_marked henv _ _ _ _ _ hw

/-- An accepted tick that raises nothing in frame sets: the state in which the callbacks start. -/
theorem accept_marked {w : World} (hw : MarkedInv w) {e : ℕ} {ep : Epic} {k' : Tick} (hep : w.epics[e]? = some ep)
    (hquote : k'.bid = 0 ↔ k'.ask = 0) {w0 : World}
    (hw0 : w0 = { w with epics := w.epics.set e (ep.accept k').1, log := w.log ++ [.accepted e k'] }) :
    MarkedInv (w0.updateOpenTrades ep.provider k') := by
  obtain ⟨pr, hpr⟩ : ∃ pr, w.providers[ep.provider]? = some pr :=
    ⟨_, List.getElem?_eq_getElem (hw.ok ep (List.mem_of_getElem? hep))⟩
  subst hw0
  set w0 : World := { w with epics := w.epics.set e (ep.accept k').1, log := w.log ++ [.accepted e k'] } with hw0
  have hmap : (w.epics.set e (ep.accept k').1).map Epic.provider = w.epics.map Epic.provider :=
    map_provider_set _ _ _ _ hep rfl
  have hok0 : EpicsOk w0 := by
    intro x hx
    rcases List.mem_or_eq_of_mem_set hx with hx | rfl
    · exact hw.ok x hx
    · exact hw.ok ep (List.mem_of_getElem? hep)
  have hreg0 : RegInv w0 := hw.reg.quiet ⟨rfl, rfl, rfl, KeptAll.refl _⟩ hmap
  obtain ⟨r1, r2, r3, r4⟩ := updateOpenTrades_rest w0 ep.provider k'
  have hst := updateOpenTrades_steps (V := False) w0 ep.provider k'
  refine ⟨hst.epicsOk hok0, WSteps.inv (fun a b ha hb => hb.regInv ha) hst.lift hreg0, ?_, ?_, ?_⟩
  · rw [r1]; show ((w.epics.set e _).map Epic.provider).Nodup; rw [hmap]; exact hw.own
  · rw [r1]
    intro x hx
    rcases List.mem_or_eq_of_mem_set hx with hx | rfl
    · exact hw.zero x hx
    · exact hquote
  · rw [r1]
    intro t' ht'
    obtain ⟨i, hi⟩ := List.getElem?_of_mem ht'
    rw [updateOpenTrades_get hreg0 (show w0.providers[ep.provider]? = some pr from hpr)] at hi
    rcases hti : w.trades[i]? with _ | t
    · rw [show w0.trades[i]? = none from hti] at hi; cases hi
    · rw [show w0.trades[i]? = some t from hti] at hi
      simp only [Option.map_some, Option.some.injEq] at hi
      obtain ⟨m1, m2⟩ := hw.marked t (List.mem_of_getElem? hti)
      have hbelongs : t.openedQty ≠ 0 → ∀ (p : ℕ) pr', w.providers[p]? = some pr' → i ∈ pr'.trades →
          ∀ ep', w.epics[t.epic]? = some ep' → ep'.provider = p := by
        intro _ p pr' h1 h2 ep' h3
        have := hw.reg.provOf i t p pr' hti h1 h2
        unfold World.providerOf at this
        rw [h3] at this
        exact Option.some.inj this
      show Marked (w.epics.set e (ep.accept k').1) t'
      by_cases hopen : t.openedQty = 0
      · rw [if_neg (fun h => h.2 hopen)] at hi
        subst hi
        exact ⟨m1, fun hne => absurd hopen hne⟩
      · by_cases hm : i ∈ pr.trades
        · rw [if_pos ⟨hm, hopen⟩] at hi
          subst hi
          have hk := kept_update t (Spec.exitQuote t.dir k')
          rw [updateFromTick_eq]
          refine ⟨by rw [Trade.update_openedQty, hk.openQty]; exact m1, fun _ x hx => ?_⟩
          obtain ⟨ep', hep'⟩ := hw.reg.epicOk i t hti
          have hp' := hbelongs hopen _ pr hpr hm ep' hep'
          have hte : t.epic = e := epic_of_provider hw.own hep' hep hp'
          rw [hk.epic, hte, List.getElem?_set, if_pos rfl, if_pos (getElem?_lt hep)] at hx
          injection hx with hx
          subst hx
          rw [hk.dir, Trade.update_curClose, if_neg]
          · rfl
          · intro hc; exact hopen (t.closed_iff.mp hc)
        · rw [if_neg (fun h => hm h.1)] at hi
          subst hi
          refine ⟨m1, fun hne x hx => ?_⟩
          have hte : e ≠ t.epic := by
            intro hte
            subst hte
            obtain ⟨p, pr', hp1, hp2⟩ := hw.reg.listed i t hti (by have := m1.1; have := m1.2; omega)
            have hp := hbelongs hopen p pr' hp1 hp2 ep hep
            rw [← hp, hpr] at hp1
            injection hp1 with hp1
            exact hm (hp1 ▸ hp2)
          rw [List.getElem?_set, if_neg hte] at hx
          exact m2 hne x hx

theorem exec_marked {env : Env} (henv : ∀ s cb e w, (env s cb e w).All (fun o => o.Indirect ∧ o.Valid)) (w : World) (c : Cmd)
    (hop : ∀ o, c = .op o → o.Indirect ∧ o.Valid) (hquote : ∀ e k, c = .tick e k → (k.bid = 0 ↔ k.ask = 0))
    (hfs : ∀ e k ep, c = .tick e k → w.epics[e]? = some ep → (Spec.localTick ep.zone k).dt.lt ep.lastTick.dt = false →
      (ep.accept (Spec.localTick ep.zone k)).2 = none)
    (hw : MarkedInv w) : MarkedInv (w.exec env c).1 := by
  by_cases hc : ∀ e t, c ≠ .tick e t
  · by_cases hc' : ∃ o, c = .op o
    · obtain ⟨o, rfl⟩ := hc'
      exact step_marked w o (hop o rfl) hw
    · obtain ⟨h1, h2⟩ := exec_other env w c hc
      obtain ⟨g1, g2⟩ : (w.exec env c).1.trades = w.trades ∧
          (w.exec env c).1.epics.map Epic.provider = w.epics.map Epic.provider :=
        ⟨(exec_registration env w c hc hc').1, (exec_registration env w c hc hc').2.1⟩ -- '
      have hs := exec_steps (V := False) (env := env) (fun v => v.elim) w hw.ok c (fun v => v.elim)
      refine ⟨hs.epicsOk hw.ok, WSteps.inv (fun a b ha hb => hb.regInv ha) hs hw.reg, by rw [g2]; exact hw.own, ?_, ?_⟩
      · intro x hx
        obtain ⟨e, he⟩ := List.getElem?_of_mem hx
        obtain ⟨y, hy, hxy⟩ := h2.back he
        rw [hxy.last]; exact hw.zero y (List.mem_of_getElem? hy)
      · rw [g1]
        intro t ht
        refine ⟨(hw.marked t ht).1, fun hne x hx => ?_⟩
        obtain ⟨y, hy, hxy⟩ := h2.back hx
        rw [hxy.last]; exact (hw.marked t ht).2 hne y hy
  · push Not at hc
    obtain ⟨e, k, rfl⟩ := hc
    show MarkedInv (w.onNewTick env e k).1
    rcases hep : w.epics[e]? with _ | ep
    · unfold World.onNewTick; rw [hep]; exact hw
    · rcases hlt : (Spec.localTick ep.zone k).dt.lt ep.lastTick.dt with _ | _
      · set k' := Spec.localTick ep.zone k with hk'
        set w0 : World := { w with epics := w.epics.set e (ep.accept k').1, log := w.log ++ [.accepted e k'] } with hw0
        have heq : w.onNewTick env e k = execStrategies env e ep.marketOpen k'.dt (w0.updateOpenTrades ep.provider k')
            (ep.strategies.map Prod.snd) := by
          unfold World.onNewTick
          simp only [hep]
          change (if k'.dt.lt ep.lastTick.dt = true then _ else _) = _
          rw [hlt]
          simp only [Bool.false_eq_true, if_false]
          change (match (ep.accept k').2 with
            | some err => _
            | none => _) = _
          rw [hfs e k ep rfl hep hlt]
          rfl
        rw [heq]
        exact execStrategies_marked henv (accept_marked (k' := k') hw hep (hquote e k rfl) hw0) _ _ _ _
      · have : (w.onNewTick env e k).1 = w := by
          rw [onNewTick_rejected env w e k ep hep hlt]
        rw [this]; exact hw

end
end Estrade
