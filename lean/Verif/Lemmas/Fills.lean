import Verif.Lemmas.Covered
import Verif.Lemmas.EpicLog
import Verif.Lemmas.PerTrade

/-!
# Invariants of trades that read the quotes of their epic
-/

set_option linter.unusedSectionVars false
set_option autoImplicit false

namespace Estrade

section
variable [Arith]

/-- A predicate of single trades that survives everything operations other than `trade.update` and `trade.close` do to
trades, on the epics `E`; under `V`, quantities passed by the user are valid; under `B`, no provider nets trades. -/
structure QuoteInv (V : Prop) (E : List Epic) (P : Trade → Prop) (B : Prop := False) : Prop where
  fresh : ∀ e ep d q s t n, E[e]? = some ep → Trade.openFromTick ep.lastTick e d q s = .ok t → (V → 0 ≤ n ∧ n ≤ t.openQty) →
    (B → n = t.openQty) → P { t with openQty := n }
  close : ∀ t ep q, E[t.epic]? = some ep → (V → QOk q) → P t → P (t.closeFromTick ep.lastTick q)
  nonneg : V → ∀ t, P t → 0 ≤ t.openedQty
  status : ∀ t st, P t → P { t with status := st }
  closeStatus : ∀ t k st, P t → P { t with closes := (t.closes.modify k (fun c => { c with status := st })) }

section
variable {V B : Prop} {E : List Epic} {P : Trade → Prop} (hP : QuoteInv V E P B)
include hP

theorem closeOn_quote {w w' : World} (hE : w.epics = E) (hw : ∀ t ∈ w.trades, P t) {p i : ℕ} {q : Option ℤ}
    (hq : V → QOk q) (h : w.closeOn p i q = .ok w') : w'.epics = E ∧ ∀ t ∈ w'.trades, P t := by
  obtain ⟨t, ep, ht, hep, rfl⟩ := closeOn_eq h
  refine ⟨hE, fun u hu => ?_⟩
  have hu : u ∈ w.trades.set i (t.closeFromTick ep.lastTick q) := hu
  rcases List.mem_or_eq_of_mem_set hu with hu | rfl
  · exact hw u hu
  · exact hP.close _ _ _ (hE ▸ hep) hq (hw t (List.mem_of_getElem? ht))

theorem netLoop_quote {p : ℕ} (l : List ℕ) : ∀ (w w' : World) (new new' : Trade), w.epics = E → (∀ t ∈ w.trades, P t) →
    (V → 0 ≤ new.openQty) → netLoop p w new l = .ok (w', new') →
    w'.epics = E ∧ (∀ t ∈ w'.trades, P t) ∧ ∃ n, (V → 0 ≤ n ∧ n ≤ new.openQty) ∧ new' = { new with openQty := n } := by
  induction l with
  | nil =>
    intro w w' new new' hE hw hn h
    injection h with h; injection h with h1 h2; subst h1; subst h2
    exact ⟨hE, hw, new.openQty, fun v => ⟨hn v, le_refl _⟩, rfl⟩
  | cons i rest ih =>
    intro w w' new new' hE hw hn h
    unfold netLoop at h
    split at h
    · cases h
    · rename_i t ht
      have ht0 : V → 0 ≤ t.openedQty := fun v => hP.nonneg v t (hw t (List.mem_of_getElem? ht))
      split_ifs at h
      · exact ih w w' new new' hE hw hn h
      · simp only [bind, Except.bind] at h
        split at h
        · cases h
        · rename_i w1 h1
          obtain ⟨a, b⟩ := closeOn_quote hP hE hw (fun v n hn' => by
            injection hn' with hn'; have := hn v; have := ht0 v; omega) h1
          obtain ⟨c, d, n, hn', rfl⟩ := ih w1 w' _ new' a b (fun v => by have := hn v; simp only; omega) h
          exact ⟨c, d, n, fun v => ⟨(hn' v).1, (hn' v).2.trans (by have := hn v; have := ht0 v; dsimp only; omega)⟩, rfl⟩
      · exact ih w w' new new' hE hw hn h

theorem providerOpen_quote {w w' : World} (hE : w.epics = E) (hw : ∀ t ∈ w.trades, P t) {p : ℕ} {t : Trade}
    (ht : ∀ n, (V → 0 ≤ n ∧ n ≤ t.openQty) → (B → n = t.openQty) → P { t with openQty := n }) (hv : V → 0 ≤ t.openQty)
    (hB : B → ∀ pr ∈ w.providers, pr.kind = .custom) (h : w.providerOpen p t = .ok w') : ∀ t ∈ w'.trades, P t := by
  have happ : ∀ (l : List Trade) (u : Trade), (∀ t ∈ l, P t) → P u → ∀ t ∈ l ++ [u], P t := by
    intro l u h1 h2 x hx
    rcases List.mem_append.mp hx with hx | hx
    · exact h1 x hx
    · rw [List.mem_singleton.mp hx]; exact h2
  unfold World.providerOpen at h
  split at h
  · cases h
  · rename_i pr hpr
    split at h
    · injection h with h
      subst h
      rw [(register_epics _ _ _ _).2.2]
      exact happ _ _ hw (ht t.openQty (fun v => ⟨hv v, le_refl _⟩) (fun _ => rfl))
    · rename_i hk
      simp only [bind, Except.bind] at h
      split at h
      · cases h
      · rename_i r hr
        obtain ⟨a, b, n, hn, hr2⟩ := netLoop_quote hP _ _ _ _ _ hE hw hv hr
        have hn' : P r.2 := by
          rw [hr2]
          refine ht n hn (fun b => ?_)
          have := hB b _ (List.mem_of_getElem? hpr)
          rw [this] at hk
          cases hk
        split_ifs at h
        · injection h with h; subst h; exact happ _ _ b hn'
        · injection h with h; subst h
          rw [(register_epics _ _ _ _).2.2]
          exact happ _ _ b hn'

theorem closeTrade_quote {w w' : World} (hE : w.epics = E) (hw : ∀ t ∈ w.trades, P t) {e i : ℕ} {q : Option ℤ}
    (hq : V → QOk q) (h : w.closeTrade e i q = .ok w') : w'.epics = E ∧ ∀ t ∈ w'.trades, P t := by
  unfold World.closeTrade at h
  split at h
  · cases h
  · exact closeOn_quote hP hE hw hq h

theorem closeOpenedLoop_quote {q : Option ℤ} (hq : V → QOk q) (l : List ℕ) : ∀ (w w' : World), w.epics = E → (∀ t ∈ w.trades, P t) →
    closeOpenedLoop q w l = .ok w' → ∀ t ∈ w'.trades, P t := by
  induction l with
  | nil => intro w w' _ hw h; injection h with h; subst h; exact hw
  | cons i rest ih =>
    intro w w' hE hw h
    unfold closeOpenedLoop at h
    split at h
    · cases h
    · split_ifs at h
      · exact ih w w' hE hw h
      · simp only [bind, Except.bind] at h
        split at h
        · cases h
        · rename_i w1 h1
          obtain ⟨a, b⟩ := closeTrade_quote hP hE hw hq h1
          exact ih w1 w' a b h

theorem setStatus_quote {w : World} (hw : ∀ t ∈ w.trades, P t) (tg : Target) (st : Status) :
    ∀ t ∈ (w.setStatus tg st).trades, P t := by
  cases tg with
  | opening j => exact mem_modify_inv hw j _ (fun t _ ht => hP.status _ _ ht)
  | closing j m => exact mem_modify_inv hw j _ (fun t _ ht => hP.closeStatus _ _ _ ht)

theorem step_quote {w : World} (hE : w.epics = E) (hw : ∀ t ∈ w.trades, P t) (o : Op) (ho : o.NotDirect)
    (hup : ∀ i v, o = .update i v → ∀ t, P t → P (t.update v)) (hv : V → o.Valid)
    (hB : B → ∀ pr ∈ w.providers, pr.kind = .custom := by exact False.elim) : ∀ t ∈ (w.step o).1.trades, P t := by
  have hkeep : ∀ r : Except PyErr World, (∀ w', r = .ok w' → ∀ t ∈ w'.trades, P t) →
      ∀ t ∈ (orKeep w r).1.trades, P t := by
    intro r hr
    cases r with
    | error e => exact hw
    | ok w' => exact hr w' rfl
  cases o with
  | openTrade e s d q =>
    simp only [World.step]
    split
    · exact hw
    · rename_i ep hep
      split_ifs
      · apply hkeep
        intro w' h
        simp only [bind, Except.bind] at h
        split at h
        · cases h
        · rename_i t ht
          exact providerOpen_quote hP hE hw (fun n hn hb => hP.fresh _ _ _ _ _ _ n (hE ▸ hep) ht hn hb)
            (fun v => by rw [(openFromTick_fresh ht).2.2.1]; exact hv v) hB h
      · exact hw
  | closeTrade e i q => exact hkeep _ (fun w' h => (closeTrade_quote hP hE hw hv h).2)
  | closeOpened s q =>
    simp only [World.step]
    split
    · exact hw
    · exact hkeep _ (fun w' h => closeOpenedLoop_quote hP hv _ _ _ hE hw h)
  | update i v => exact mem_modify_inv hw i _ (fun t _ ht => hup i v rfl t ht)
  | close i v dt q => exact ho.elim
  | pause s d => exact hw
  | stop s b => exact hw
  | thread p i st =>
    show ∀ t ∈ (w.runThread p i st).1.trades, P t
    unfold World.runThread
    split
    · exact hw
    · split
      · exact hw
      · dsimp only
        split_ifs
        · split
          · refine setStatus_quote hP ?_ _ _; exact hw
          · split
            · exact hw
            · refine setStatus_quote hP ?_ _ _; exact hw
        · exact hw

end

theorem updateOpenTrades_quote {P : Trade → Prop} (hup : ∀ t v, P t → P (t.update v)) (w : World) (p : ℕ) (k : Tick) (hw : ∀ t ∈ w.trades, P t) :
    ∀ t ∈ (w.updateOpenTrades p k).trades, P t := by
  unfold World.updateOpenTrades
  split
  · exact hw
  · rename_i pr hpr
    clear hpr
    generalize w.openedTrades pr = l
    induction l generalizing w with
    | nil => exact hw
    | cons i l ih =>
      rw [List.foldl_cons]
      exact ih _ (mem_modify_inv hw i _ (fun t _ ht => hup _ _ ht))

theorem updateOpenTrades_epics (w : World) (p : ℕ) (k : Tick) :
    (w.updateOpenTrades p k).epics = w.epics ∧ (w.updateOpenTrades p k).log = w.log := by
  unfold World.updateOpenTrades
  split
  · exact ⟨rfl, rfl⟩
  · rename_i pr hpr
    clear hpr
    generalize w.openedTrades pr = l
    induction l generalizing w with
    | nil => exact ⟨rfl, rfl⟩
    | cons i l ih =>
      rw [List.foldl_cons]
      exact ih _

theorem isActive_trades (st : Strategy) (dt : DT) : (st.isActive dt).2.trades = st.trades := by
  unfold Strategy.isActive
  split_ifs
  · rfl
  · split
    · rfl
    · split_ifs <;> rfl

/-- A predicate kept by the allowed operations, log entries and the switches of strategies is kept by the callbacks of a
tick. -/
theorem execStrategies_inv {J : World → Prop} {Q : Op → Prop} (hop : ∀ w o, Q o → J w → J (w.step o).1)
    (hnote : ∀ (w : World) s e cb, J w → J { w with log := w.log ++ [.notify s e cb] })
    (hstrat : ∀ (w : World) (s : ℕ) (st st' : Strategy), w.strategies[s]? = some st → st'.trades = st.trades → J w →
      J { w with strategies := w.strategies.set s st' })
    {env : Env} (henv : ∀ s cb e w, (env s cb e w).All Q) (l : List ℕ) (w : World) (e : ℕ) (b : Bool) (dt : DT)
    (hw : J w) : J (execStrategies env e b dt w l).1 := by
  have hcall : ∀ (w : World) s cb e, J w → J (w.call env s cb e).1 := by
    intro w s cb e hw
    unfold World.call
    exact prog_inv hop _ (henv s cb e _) _ (hnote w s e cb hw)
  have hif : ∀ c (w : World) s cb e, J w → J (w.callIf env c s cb e).1 := by
    intro c w s cb e hw
    unfold World.callIf
    split_ifs
    · exact hcall w s cb e hw
    · exact hw
  have hthen : ∀ (r : World × Option PyErr) (f : World → World × Option PyErr), J r.1 → (∀ w, J w → J (f w).1) →
      J (andThen r f).1 := by
    intro r f hr hf
    rcases andThen_cases r f with ⟨-, h⟩ | ⟨-, h⟩ <;> rw [h]
    · exact hf _ hr
    · exact hr
  have hall : ∀ (w : World) e s b, J w → J (w.notifyAll env e s b).1 := by
    intro w e s b hw
    unfold World.notifyAll
    exact hthen _ _ (hif _ _ _ _ _ hw) fun w hw => hthen _ _ (hif _ _ _ _ _ hw) fun w hw =>
      hthen _ _ (hif _ _ _ _ _ hw) fun w hw => hcall _ _ _ _ hw
  induction l generalizing w with
  | nil => exact hw
  | cons s rest ih =>
      unfold execStrategies
      refine hthen _ _ ?_ (fun w hw => ih w hw)
      unfold World.execStrategy
      split
      · exact hw
      · rename_i st hst
        dsimp only
        split_ifs
        · exact hall _ _ _ _ (hstrat w s _ _ hst (isActive_trades _ _) hw)
        · exact hstrat w s _ _ hst (isActive_trades _ _) hw

/-- Registration commands change neither trades nor providers. -/
theorem exec_registration (env : Env) (w : World) (c : Cmd) (hc : ∀ e t, c ≠ .tick e t) (hc' : ¬ ∃ o, c = .op o) :
    (w.exec env c).1.trades = w.trades ∧
      (w.exec env c).1.epics.map Epic.provider = w.epics.map Epic.provider ∧ (w.exec env c).1.providers = w.providers ∧
      (w.exec env c).1.strategies.length = w.strategies.length := by
  cases c with
  | tick e t => exact absurd rfl (hc e t)
  | op o => exact absurd ⟨o, rfl⟩ hc'
  | addFrameSet e ref fs =>
    simp only [World.exec, World.addFrameSet]
    rcases hep : w.epics[e]? with _ | ep
    · exact ⟨rfl, rfl, rfl, rfl⟩
    · simp only
      rcases ha : ep.addFrameSet ref fs with err | ep'
      · exact ⟨rfl, rfl, rfl, rfl⟩
      · refine ⟨rfl, map_provider_set _ _ _ _ hep ?_, rfl, rfl⟩
        unfold Epic.addFrameSet at ha
        split at ha
        · cases ha
        · injection ha with ha; rw [← ha]
  | addStrategy e s =>
    simp only [World.exec, World.addStrategy]
    rcases hep : w.epics[e]? with _ | ep
    · exact ⟨rfl, rfl, rfl, rfl⟩
    · rcases hs : w.strategies[s]? with _ | st
      · exact ⟨rfl, rfl, rfl, rfl⟩
      · simp only
        split
        · exact ⟨rfl, rfl, rfl, rfl⟩
        · refine ⟨rfl, ?_, rfl, by simp [World.modStrategy, World.modEpic]⟩
          show (w.epics.modify e _).map Epic.provider = _
          rw [← set_eq_modify _ _ _ _ hep]
          exact map_provider_set _ _ _ _ hep rfl
  | addIndicator e ref ind =>
    simp only [World.exec, World.addIndicator]
    rcases hep : w.epics[e]? with _ | ep
    · exact ⟨rfl, rfl, rfl, rfl⟩
    · simp only
      split
      · exact ⟨rfl, rfl, rfl, rfl⟩
      · exact ⟨rfl, map_provider_set _ _ _ _ hep rfl, rfl, rfl⟩

/-- A predicate of worlds kept by the allowed operations and by every other change of a run holds throughout. -/
theorem run_world {J : World → Prop} {Q : Op → Prop} (hop : ∀ w o, Q o → J w → J (w.step o).1)
    (hupd : ∀ (w : World) p k, J w → J (w.updateOpenTrades p k))
    (hnote : ∀ (w : World) s e cb, J w → J { w with log := w.log ++ [.notify s e cb] })
    (hacc : ∀ (w : World) (e : ℕ) (ep : Epic) (k : Tick), w.epics[e]? = some ep →
      (k.dt.to ep.zone).lt ep.lastTick.dt = false → J w →
      J { w with epics := w.epics.set e (ep.accept { k with dt := k.dt.to ep.zone }).1,
                 log := w.log ++ [.accepted e { k with dt := k.dt.to ep.zone }] })
    (hreg : ∀ w w' : World, w'.trades = w.trades → w'.providers = w.providers → w'.log = w.log →
      w'.epics.map Epic.provider = w.epics.map Epic.provider → w'.strategies.length = w.strategies.length →
      ClocksKept w.epics w'.epics → J w → J w')
    {env : Env} (henv : ∀ s cb e w, (env s cb e w).All Q) (l : List Cmd) (hl : ∀ o, Cmd.op o ∈ l → Q o) (w : World)
    (hw : J w) : J (w.runCmds env l) := by
  have hexec : ∀ (l : List ℕ) (w : World) e b dt, J w → J (execStrategies env e b dt w l).1 :=
    fun l w e b dt hw => execStrategies_inv hop hnote
      (fun w s st st' _ _ hw => hreg w _ rfl rfl rfl rfl (by simp) (.refl _) hw) henv l w e b dt hw
  have htick : ∀ (w : World) e k, J w → J (w.onNewTick env e k).1 := by
    intro w e k hw
    unfold World.onNewTick
    split
    · exact hw
    · rename_i ep hep
      dsimp only
      split_ifs with hlt
      · exact hw
      · have h1 := hacc w e ep k hep (by simpa using hlt) hw
        split
        · exact h1
        · exact hexec _ _ _ _ _ (hupd _ _ _ h1)
  induction l generalizing w with
  | nil => exact hw
  | cons c l ih =>
    refine ih (fun o ho => hl o (List.mem_cons_of_mem _ ho)) _ ?_
    by_cases hc : ∀ e t, c ≠ .tick e t
    · by_cases hc' : ∃ o, c = .op o
      · obtain ⟨o, rfl⟩ := hc'
        exact hop w o (hl o (by simp)) hw
      · obtain ⟨h1, h2⟩ := exec_other env w c hc
        obtain ⟨g1, g3, g2, g4⟩ := exec_registration env w c hc hc'
        exact hreg w _ g1 g2 h1 g3 g4 h2 hw
    · push Not at hc
      obtain ⟨e, k, rfl⟩ := hc
      exact htick w e k hw

/-- A family of trade predicates, indexed by epics and log, holds along runs of allowed operations. -/
theorem run_quote {P : List Epic → List Event → Trade → Prop} {I : List Epic → List Event → Prop}
    (hP : ∀ E L, I E L → QuoteInv False E (P E L)) (hup : ∀ E L t v, P E L t → P E L (t.update v))
    (hnote : ∀ E L s e cb, I E L → I E (L ++ [.notify s e cb]) ∧ ∀ t, P E L t → P E (L ++ [.notify s e cb]) t)
    (hacc : ∀ (E : List Epic) (L : List Event) (e : ℕ) (ep : Epic) (k : Tick), E[e]? = some ep → (k.dt.to ep.zone).lt ep.lastTick.dt = false → I E L →
      I (E.set e (ep.accept { k with dt := k.dt.to ep.zone }).1) (L ++ [.accepted e { k with dt := k.dt.to ep.zone }]) ∧
      ∀ t, P E L t →
        P (E.set e (ep.accept { k with dt := k.dt.to ep.zone }).1) (L ++ [.accepted e { k with dt := k.dt.to ep.zone }]) t)
    (hreg : ∀ E E' L, ClocksKept E E' → I E L → I E' L ∧ ∀ t, P E L t → P E' L t)
    {env : Env} (henv : ∀ s cb e w, (env s cb e w).All Op.NotDirect)
    (l : List Cmd) (hl : ∀ o, Cmd.op o ∈ l → o.NotDirect) (w : World) (hw : I w.epics w.log ∧ ∀ t ∈ w.trades, P w.epics w.log t) :
    I (w.runCmds env l).epics (w.runCmds env l).log ∧
      ∀ t ∈ (w.runCmds env l).trades, P (w.runCmds env l).epics (w.runCmds env l).log t := by
  let J : World → Prop := fun w => I w.epics w.log ∧ ∀ t ∈ w.trades, P w.epics w.log t
  change J w at hw
  show J (w.runCmds env l)
  have hop : ∀ w o, Op.NotDirect o → J w → J (w.step o).1 := by
    intro w o ho hw
    obtain ⟨h1, h2⟩ := step_epics w o
    show I _ _ ∧ ∀ t ∈ _, P _ _ t
    rw [h1, h2]
    exact ⟨hw.1, step_quote (hP _ _ hw.1) rfl hw.2 o ho (fun _ v _ t => hup _ _ t v) (fun v => v.elim)⟩
  have hupd : ∀ (w : World) p k, J w → J (w.updateOpenTrades p k) := by
    intro w p k hw
    obtain ⟨h1, h2⟩ := updateOpenTrades_epics w p k
    show I _ _ ∧ ∀ t ∈ _, P _ _ t
    rw [h1, h2]
    exact ⟨hw.1, updateOpenTrades_quote (hup _ _) w p k hw.2⟩
  refine run_world (J := J) (Q := Op.NotDirect) hop hupd ?_ ?_ ?_ henv l hl w hw
  · intro w s e cb hw
    obtain ⟨a, b⟩ := hnote w.epics w.log s e cb hw.1
    exact ⟨a, fun t ht => b t (hw.2 t ht)⟩
  · intro w e ep k hep hlt hw
    obtain ⟨a, b⟩ := hacc _ _ e ep k hep hlt hw.1
    exact ⟨a, fun t ht => b t (hw.2 t ht)⟩
  · intro w w' g1 _ g3 _ _ g5 hw
    obtain ⟨a, b⟩ := hreg _ _ w.log g5 hw.1
    show I _ _ ∧ ∀ t ∈ _, P _ _ t
    rw [g1, g3]
    exact ⟨a, fun t ht => b t (hw.2 t ht)⟩

end

end Estrade
