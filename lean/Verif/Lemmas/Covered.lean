import Verif.Lemmas.Threads

/-!
# Every close made through the epic or the provider has a request thread
-/

set_option linter.unusedSectionVars false
set_option autoImplicit false

namespace Estrade

section
variable [Arith]

/-- A predicate kept by the allowed operations, by repricing, and not reading anything but trades and providers holds
throughout a run. -/
theorem prog_inv {I : World → Prop} {Q : Op → Prop} (hop : ∀ w o, Q o → I w → I (w.step o).1) (p : Prog) (hp : p.All Q)
    (w : World) (hw : I w) : I (p.run w).1 := by
  induction p generalizing w with
  | done => exact hw
  | raise e => exact hw
  | act o k ih => exact ih _ _ (hp.2 _ _) _ (hop w o hp.1 hw)

theorem run_inv {I : World → Prop} {Q : Op → Prop} (hop : ∀ w o, Q o → I w → I (w.step o).1)
    (hrest : ∀ w w' : World, w'.trades = w.trades → w'.providers = w.providers →
      w'.epics.map Epic.provider = w.epics.map Epic.provider → I w → I w')
    (hupd : ∀ w p k, I w → I (w.updateOpenTrades p k)) {env : Env} (henv : ∀ s cb e w, (env s cb e w).All Q)
    (l : List Cmd) (hl : ∀ o, Cmd.op o ∈ l → Q o) (w : World) (hw : I w) : I (w.runCmds env l) := by
  have hcall : ∀ (w : World) s cb e, I w → I (w.call env s cb e).1 := by
    intro w s cb e hw
    unfold World.call
    exact prog_inv hop _ (henv s cb e _) _ (hrest w _ rfl rfl rfl hw)
  have hif : ∀ c (w : World) s cb e, I w → I (w.callIf env c s cb e).1 := by
    intro c w s cb e hw
    unfold World.callIf
    split_ifs
    · exact hcall w s cb e hw
    · exact hw
  have hthen : ∀ (r : World × Option PyErr) (f : World → World × Option PyErr), I r.1 → (∀ w, I w → I (f w).1) →
      I (andThen r f).1 := by
    intro r f hr hf
    rcases andThen_cases r f with ⟨-, h⟩ | ⟨-, h⟩ <;> rw [h]
    · exact hf _ hr
    · exact hr
  have hall : ∀ (w : World) e s b, I w → I (w.notifyAll env e s b).1 := by
    intro w e s b hw
    unfold World.notifyAll
    exact hthen _ _ (hif _ _ _ _ _ hw) fun w hw => hthen _ _ (hif _ _ _ _ _ hw) fun w hw =>
      hthen _ _ (hif _ _ _ _ _ hw) fun w hw => hcall _ _ _ _ hw
  have hexec : ∀ (l : List ℕ) (w : World) e b dt, I w → I (execStrategies env e b dt w l).1 := by
    intro l
    induction l with
    | nil => intro w e b dt hw; exact hw
    | cons s rest ih =>
      intro w e b dt hw
      unfold execStrategies
      refine hthen _ _ ?_ (fun w hw => ih w e b dt hw)
      unfold World.execStrategy
      split
      · exact hw
      · dsimp only
        split_ifs
        · exact hall _ _ _ _ (hrest w _ rfl rfl rfl hw)
        · exact hrest w _ rfl rfl rfl hw
  have htick : ∀ (w : World) e k, I w → I (w.onNewTick env e k).1 := by
    intro w e k hw
    unfold World.onNewTick
    split
    · exact hw
    · rename_i ep hep
      dsimp only
      split_ifs
      · exact hw
      · split
        · exact hrest w _ rfl rfl (map_provider_set _ _ _ _ hep rfl) hw
        · exact hexec _ _ _ _ _ (hupd _ _ _ (hrest w _ rfl rfl (map_provider_set _ _ _ _ hep rfl) hw))
  induction l generalizing w with
  | nil => exact hw
  | cons c l ih =>
    refine ih (fun o ho => hl o (List.mem_cons_of_mem _ ho)) _ ?_
    cases c with
    | tick e k => exact htick w e k hw
    | op o => exact hop w o (hl o (by simp)) hw
    | addFrameSet e ref fs =>
      simp only [World.exec, World.addFrameSet]
      rcases hep : w.epics[e]? with _ | ep
      · exact hw
      · simp only
        rcases ha : ep.addFrameSet ref fs with err | ep'
        · exact hw
        · refine hrest w _ rfl rfl (map_provider_set _ _ _ _ hep ?_) hw
          unfold Epic.addFrameSet at ha
          split at ha
          · cases ha
          · injection ha with ha; rw [← ha]
    | addStrategy e s =>
      simp only [World.exec, World.addStrategy]
      rcases hep : w.epics[e]? with _ | ep
      · exact hw
      · rcases hs : w.strategies[s]? with _ | st
        · exact hw
        · simp only
          split
          · exact hw
          · refine hrest w _ rfl rfl ?_ hw
            show (w.epics.modify e _).map Epic.provider = _
            rw [← set_eq_modify _ _ _ _ hep]
            exact map_provider_set _ _ _ _ hep rfl
    | addIndicator e ref ind =>
      simp only [World.exec, World.addIndicator]
      rcases hep : w.epics[e]? with _ | ep
      · exact hw
      · simp only
        split
        · exact hw
        · exact hrest w _ rfl rfl (map_provider_set _ _ _ _ hep rfl) hw

/-- A thread works (or worked) on the object. -/
def HasThread (w : World) (tg : Target) : Prop :=
  ∃ (p : ℕ) (pr : Provider), w.providers[p]? = some pr ∧ ∃ th ∈ pr.threads, th.target = tg

/-- Every close has its thread. -/
def Covered (w : World) : Prop := ∀ i k, Spec.statusOf w (.closing i k) ≠ none → HasThread w (.closing i k)

theorem TStep.hasThread {w w' : World} (h : TStep w w') {tg : Target} (ht : HasThread w tg) : HasThread w' tg := by
  obtain ⟨p, pr, h1, th, h2, h3⟩ := ht
  cases h with
  | same hp hs => exact ⟨p, pr, by rw [hp]; exact h1, th, h2, h3⟩
  | spawn p0 tg0 extra hx hp _ _ _ =>
    by_cases hpp : p0 = p
    · exact ⟨p, _, by rw [hp, List.getElem?_modify, h1, hpp]; simp; rfl, th, by simp [h2], h3⟩
    · exact ⟨p, pr, by rw [hp, List.getElem?_modify, h1]; simp [hpp], th, h2, h3⟩
  | ran p0 i0 pr0 th0 hpr0 hth0 ha0 hp hc hsome hs =>
    by_cases hpp : p0 = p
    · obtain ⟨j, hj⟩ := List.getElem?_of_mem h2
      refine ⟨p, { pr with threads := pr.threads.modify i0 (fun th => { th with alive := false }) },
        by rw [hp, List.getElem?_modify, h1, hpp]; simp, ?_⟩
      by_cases hji : i0 = j
      · exact ⟨⟨th.target, false⟩, List.mem_of_getElem? (i := j) (by simp [hj, hji]), h3⟩
      · exact ⟨th, List.mem_of_getElem? (i := j) (by simp [hj, hji]), h3⟩
    · exact ⟨p, pr, by rw [hp, List.getElem?_modify, h1]; simp [hpp], th, h2, h3⟩

theorem Covered.of {w w' : World} (hc : Covered w) (ht : ∀ tg, HasThread w tg → HasThread w' tg)
    (h : ∀ i k, Spec.statusOf w' (.closing i k) ≠ none → Spec.statusOf w (.closing i k) ≠ none ∨
      HasThread w' (.closing i k)) : Covered w' := by
  intro i k hs
  rcases h i k hs with h | h
  · exact ht _ (hc i k h)
  · exact h

/-- Number of closes of each trade. -/
theorem statusOf_closing (w : World) (i k : ℕ) :
    Spec.statusOf w (.closing i k) ≠ none ↔ ∃ t, w.trades[i]? = some t ∧ k < t.closes.length := by
  simp only [Spec.statusOf]
  rcases h : w.trades[i]? with _ | t
  · simp
  · simp

theorem covered_modify {w : World} (hc : Covered w) (i : ℕ) (f : Trade → Trade)
    (hf : ∀ t, (f t).closes.length = t.closes.length) : Covered { w with trades := w.trades.modify i f } := by
  refine hc.of (fun _ h => h) (fun j k h => .inl ?_)
  rw [statusOf_closing] at h ⊢
  obtain ⟨t, h1, h2⟩ := h
  simp only [List.getElem?_modify] at h1
  rcases hj : w.trades[j]? with _ | t0
  · rw [hj] at h1; cases h1
  · rw [hj] at h1
    refine ⟨t0, rfl, ?_⟩
    by_cases hij : i = j
    · simp only [hij, if_true, Option.map_eq_map, Option.map_some, Option.some.injEq] at h1
      rw [← h1, hf] at h2; exact h2
    · simp only [hij, if_false, Option.map_eq_map, Option.map_some, Option.some.injEq] at h1
      rw [← h1] at h2; exact h2

theorem covered_closeOn {w w' : World} (hc : Covered w) {p i : ℕ} {q : Option ℤ} (hp : p < w.providers.length)
    (h : w.closeOn p i q = .ok w') : Covered w' := by
  obtain ⟨t, ep, ht, -, rfl⟩ := closeOn_eq h
  have hnew : HasThread ((w.setTrade i (t.closeFromTick ep.lastTick q)).modProvider p
      (fun pr => pr.spawn (.closing i t.closes.length))) (.closing i t.closes.length) := by
    refine ⟨p, (w.providers[p]).spawn (.closing i t.closes.length), ?_, ⟨.closing i t.closes.length, true⟩,
      by simp [Provider.spawn], rfl⟩
    show (w.providers.modify p _)[p]? = _
    rw [List.getElem?_modify, List.getElem?_eq_getElem hp]
    simp
  refine hc.of ?_ ?_
  · rintro tg ⟨p', pr, h1, th, h2, h3⟩
    by_cases hpp : p = p'
    · subst hpp
      refine ⟨p, pr.spawn (.closing i t.closes.length), ?_, th, by simp [Provider.spawn, h2], h3⟩
      show (w.providers.modify p _)[p]? = _
      rw [List.getElem?_modify, h1]; simp
    · refine ⟨p', pr, ?_, th, h2, h3⟩
      show (w.providers.modify p _)[p']? = _
      rw [List.getElem?_modify, h1]; simp [hpp]
  · intro j k hs
    rw [statusOf_closing] at hs ⊢
    obtain ⟨u, h1, h2⟩ := hs
    change (w.trades.set i _)[j]? = _ at h1
    rw [List.getElem?_set] at h1
    by_cases hij : i = j
    · subst hij
      rw [if_pos rfl, if_pos (getElem?_lt ht)] at h1
      injection h1 with h1
      subst h1
      have : (t.closeFromTick ep.lastTick q).closes.length = t.closes.length + 1 := by
        unfold Trade.closeFromTick Trade.close
        simp only
        rw [(updateFromTick_status t ep.lastTick).2]; simp
      rw [this] at h2
      by_cases hk : k = t.closes.length
      · subst hk; exact .inr hnew
      · exact .inl ⟨t, ht, by omega⟩
    · rw [if_neg hij] at h1
      exact .inl ⟨u, h1, h2⟩

theorem covered_netLoop {p : ℕ} (l : List ℕ) : ∀ (w w' : World) (new new' : Trade), Covered w →
    p < w.providers.length → netLoop p w new l = .ok (w', new') →
    Covered w' ∧ p < w'.providers.length ∧ new'.closes = new.closes := by
  induction l with
  | nil => intro w w' new new' hc hp h; injection h with h; injection h with h1 h2; subst h1; subst h2; exact ⟨hc, hp, rfl⟩
  | cons i rest ih =>
    intro w w' new new' hc hp h
    unfold netLoop at h
    split at h
    · cases h
    · split_ifs at h
      · exact ih w w' new new' hc hp h
      · simp only [bind, Except.bind] at h
        split at h
        · cases h
        · rename_i w1 h1
          obtain ⟨a, b, c⟩ := ih w1 w' _ new' (covered_closeOn hc hp h1)
            (by obtain ⟨t, ep, -, -, rfl⟩ := closeOn_eq h1; simpa [World.modProvider, World.setTrade] using hp) h
          exact ⟨a, b, c⟩
      · exact ih w w' new new' hc hp h

theorem covered_append {w : World} (hc : Covered w) {t : Trade} (ht : t.closes = []) :
    Covered { w with trades := w.trades ++ [t] } := by
  refine hc.of (fun _ h => h) (fun j k h => .inl ?_)
  rw [statusOf_closing] at h ⊢
  obtain ⟨u, h1, h2⟩ := h
  simp only [List.getElem?_append] at h1
  split_ifs at h1 with hlt
  · exact ⟨u, h1, h2⟩
  · have := List.mem_of_getElem? h1
    rw [List.mem_singleton] at this
    subst this
    rw [ht] at h2; simp at h2

theorem covered_register {w : World} (hc : Covered w) (p i : ℕ) (s : Option ℕ) : Covered (w.register p i s) := by
  obtain ⟨h1, -, h3, -⟩ := register_eq w p i s
  refine hc.of ?_ (fun j k h => .inl ?_)
  · rintro tg ⟨p', pr, g1, th, g2, g3⟩
    by_cases hpp : p = p'
    · subst hpp
      exact ⟨p, { pr with trades := pr.trades ++ [i], threads := pr.threads ++ [⟨.opening i, true⟩] },
        by rw [h3, List.getElem?_modify, g1]; simp, th, by simp [g2], g3⟩
    · exact ⟨p', pr, by rw [h3, List.getElem?_modify, g1]; simp [hpp], th, g2, g3⟩
  · rw [statusOf_closing] at h ⊢
    rw [h1] at h; exact h

theorem covered_providerOpen {w w' : World} (hc : Covered w) {p : ℕ} {t : Trade} (ht : t.closes = [])
    (h : w.providerOpen p t = .ok w') : Covered w' := by
  unfold World.providerOpen at h
  split at h
  · cases h
  · rename_i pr hpr
    split at h
    · injection h with h
      subst h
      exact covered_register (covered_append hc ht) _ _ _
    · simp only [bind, Except.bind] at h
      split at h
      · cases h
      · rename_i r hr
        obtain ⟨a, b, c⟩ := covered_netLoop _ _ _ _ _ hc (getElem?_lt hpr) hr
        split_ifs at h
        · injection h with h; subst h; exact covered_append a (c.trans ht)
        · injection h with h; subst h; exact covered_register (covered_append a (c.trans ht)) _ _ _

theorem covered_closeTrade {w w' : World} (hc : Covered w) (hw : EpicsOk w) {e i : ℕ} {q : Option ℤ}
    (h : w.closeTrade e i q = .ok w') : Covered w' := by
  unfold World.closeTrade at h
  split at h
  · cases h
  · rename_i ep hep
    exact covered_closeOn hc (hw ep (List.mem_of_getElem? hep)) h

theorem covered_closeOpenedLoop {q : Option ℤ} (l : List ℕ) : ∀ (w w' : World), Covered w → EpicsOk w →
    closeOpenedLoop q w l = .ok w' → Covered w' := by
  induction l with
  | nil => intro w w' hc _ h; injection h with h; subst h; exact hc
  | cons i rest ih =>
    intro w w' hc hw h
    unfold closeOpenedLoop at h
    split at h
    · cases h
    · split_ifs at h
      · exact ih w w' hc hw h
      · simp only [bind, Except.bind] at h
        split at h
        · cases h
        · rename_i w1 h1
          exact ih w1 w' (covered_closeTrade hc hw h1)
            (Steps.epicsOk (.single (closeTrade_steps (V := False) (fun v => v.elim) h1)) hw) h

/-- Operations other than a direct `trade.close`. -/
def Op.NotDirect : Op → Prop
  | .close _ _ _ _ => False
  | _ => True

theorem step_covered (w : World) (o : Op) (ho : o.NotDirect) (h : Covered w ∧ EpicsOk w) :
    Covered (w.step o).1 ∧ EpicsOk (w.step o).1 := by
  obtain ⟨hc, hw⟩ := h
  refine ⟨?_, (step_steps (V := False) hw (fun v => v.elim)).epicsOk hw⟩
  have hkeep : ∀ r : Except PyErr World, (∀ w', r = .ok w' → Covered w') → Covered (orKeep w r).1 := by
    intro r hr
    cases r with
    | error e => exact hc
    | ok w' => exact hr w' rfl
  cases o with
  | openTrade e s d q =>
    simp only [World.step]
    split
    · exact hc
    · rename_i ep hep
      split_ifs
      · apply hkeep
        intro w' h
        simp only [bind, Except.bind] at h
        split at h
        · cases h
        · rename_i t ht
          refine covered_providerOpen hc ?_ h
          rcases d with _ | d
          · cases ht
          · cases d <;> (injection ht with ht; subst ht; rfl)
      · exact hc
  | closeTrade e i q => exact hkeep _ (fun w' h => covered_closeTrade hc hw h)
  | closeOpened s q =>
    simp only [World.step]
    split
    · exact hc
    · exact hkeep _ (fun w' h => covered_closeOpenedLoop _ _ _ hc hw h)
  | update i v => exact covered_modify hc i _ (fun t => by rw [(update_status t v).2])
  | close i v dt q => exact ho.elim
  | pause s d => exact hc.of (fun _ h => h) (fun _ _ h => .inl h)
  | stop s b => exact hc.of (fun _ h => h) (fun _ _ h => .inl h)
  | thread p i st =>
    have hs : TStep w (w.runThread p i st).1 := (Prim.thread (V := False) (w := w) p i st).tstep
    refine hc.of (fun _ h => hs.hasThread h) (fun j k h => .inl ?_)
    intro hn
    apply h
    show Spec.statusOf (w.runThread p i st).1 _ = none
    by_contra hne
    rw [← ne_eq, statusOf_closing] at hne
    obtain ⟨t, h1, h2⟩ := hne
    apply (statusOf_closing w j k).mpr _ hn
    have hm : ∀ (u : World) (tg : Target) (st : Status), (u.setStatus tg st).trades.map (fun t => t.closes.length) =
        u.trades.map (fun t => t.closes.length) := by
      intro u tg st
      cases tg with
      | opening i => exact map_modify_eq _ _ _ _ (fun _ => rfl)
      | closing i k => exact map_modify_eq _ _ _ _ (fun _ => by simp)
    have hall : (w.runThread p i st).1.trades.map (fun t => t.closes.length) =
        w.trades.map (fun t => t.closes.length) := by
      unfold World.runThread
      split
      · rfl
      · split
        · rfl
        · dsimp only
          split_ifs
          · split
            · exact hm _ _ _
            · split
              · rfl
              · exact hm _ _ _
          · rfl
    obtain ⟨t0, g1, g2⟩ := map_getElem?_eq hall h1
    exact ⟨t0, g1, by omega⟩

theorem updateOpenTrades_covered (w : World) (p : ℕ) (k : Tick) (hc : Covered w) : Covered (w.updateOpenTrades p k) := by
  unfold World.updateOpenTrades
  split
  · exact hc
  · rename_i pr hpr
    clear hpr
    generalize w.openedTrades pr = l
    induction l generalizing w with
    | nil => exact hc
    | cons i l ih =>
      rw [List.foldl_cons]
      exact ih _ (covered_modify hc i _ (fun t => by rw [(updateFromTick_status t k).2]))

end

end Estrade
