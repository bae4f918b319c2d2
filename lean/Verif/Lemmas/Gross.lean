import Verif.Props.DayTrade
import Verif.Lemmas.Covered

/-!
# Open quantities of a strategy
-/

set_option linter.unusedSectionVars false
set_option autoImplicit false

namespace Estrade

section
variable [Arith]

/-- Sum of a measure of the open quantity over the trades selected by epic and strategy. -/
def gross (m : ℤ → ℤ) (K : ℕ → Option ℕ → Bool) (l : List Trade) : ℤ :=
  (l.map (fun t => if K t.epic t.strategy then m t.openedQty else 0)).sum

theorem gross_append (m : ℤ → ℤ) (K : ℕ → Option ℕ → Bool) (l l' : List Trade) : gross m K (l ++ l') = gross m K l + gross m K l' := by
  unfold gross; rw [List.map_append, List.sum_append]

theorem gross_le {m : ℤ → ℤ} {K : ℕ → Option ℕ → Bool} : ∀ {l l' : List Trade}, l'.length = l.length →
    (∀ (i : ℕ) t u, l[i]? = some t → l'[i]? = some u → u.epic = t.epic ∧ u.strategy = t.strategy ∧ m u.openedQty ≤ m t.openedQty) →
    gross m K l' ≤ gross m K l := by
  intro l
  induction l with
  | nil =>
    intro l' hl _
    rw [List.length_eq_zero_iff.mp hl]
  | cons t l ih =>
    intro l' hl h
    rcases l' with _ | ⟨u, l'⟩
    · cases hl
    · obtain ⟨h0, h1, h2⟩ := h 0 t u rfl rfl
      have h3 := ih (l' := l') (by simpa using hl) (fun i a b ha hb => h (i + 1) a b ha hb)
      unfold gross at h3 ⊢
      rw [List.map_cons, List.map_cons, List.sum_cons, List.sum_cons, h0, h1]
      split_ifs <;> omega

theorem sum_prefix_le {l l' : List ℤ} (h : l <+: l') (h0 : ∀ x ∈ l', 0 ≤ x) : l.sum ≤ l'.sum := by
  obtain ⟨r, rfl⟩ := h
  rw [List.sum_append]
  have := List.sum_nonneg (l := r) (fun x hx => h0 x (by simp [hx]))
  omega

/-- A trade that is kept has at most the open quantity it had. -/
theorem Kept.openedQty_le {t u : Trade} (h : Kept t u) (h0 : ∀ c ∈ u.closes, 0 ≤ c.qty) : u.openedQty ≤ t.openedQty := by
  unfold Trade.openedQty Trade.closedQty
  rw [h.openQty]
  have h1 : (t.closes.map TradeClose.qty) <+: (u.closes.map TradeClose.qty) := by
    have := h.closes.map (fun p : ℚ × ℤ × DT => p.2.1)
    rw [List.map_map, List.map_map] at this
    exact this
  have := sum_prefix_le h1 (by
    intro x hx
    obtain ⟨c, hc, rfl⟩ := List.mem_map.mp hx
    exact h0 c hc)
  omega

theorem netLoop_le {p : ℕ} (l : List ℕ) : ∀ (w w' : World) (new new' : Trade), NonNeg w → 0 ≤ new.openQty →
    netLoop p w new l = .ok (w', new') → 0 ≤ new'.openQty ∧ new'.openQty ≤ new.openQty ∧ new'.closes = new.closes := by
  induction l with
  | nil =>
    intro w w' new new' _ hn h
    injection h with h; injection h with h1 h2
    subst h1 h2; exact ⟨hn, le_refl _, rfl⟩
  | cons i rest ih =>
    intro w w' new new' hw hn h
    unfold netLoop at h
    split at h
    · cases h
    · rename_i t ht
      have h0 := hw t (List.mem_of_getElem? ht)
      split_ifs at h with hd hs
      · exact ih w w' new new' hw hn h
      · simp only at h
        rcases hc : w.closeOn p i (some (min t.openedQty new.openQty)) with err | u
        · rw [hc] at h; cases h
        · rw [hc] at h
          obtain ⟨t', ep, h1, -, rfl⟩ := closeOn_eq hc
          obtain ⟨g1, g2, g3⟩ := ih _ _ _ _ (by
            intro x hx
            rcases List.mem_or_eq_of_mem_set hx with hx | rfl
            · exact hw x hx
            · rw [closeFromTick_openedQty]
              rw [h1] at ht; injection ht with ht; subst ht
              have := Trade.closeQty_bounds h0 (q := some (min t'.openedQty new.openQty)) (by intro n hn'; injection hn' with hn'; omega)
              omega) (show 0 ≤ new.openQty - min t.openedQty new.openQty by omega) h
          simp only at g1 g2 g3
          exact ⟨g1, by omega, g3⟩
      · exact ih w w' new new' hw hn h

theorem providerOpen_new {w w' : World} (hw : NonNeg w) {p : ℕ} {x : Trade} (hx : 0 ≤ x.openQty) (h : w.providerOpen p x = .ok w') :
    ∃ t, t.epic = x.epic ∧ t.strategy = x.strategy ∧ w'.trades.length = w.trades.length + 1 ∧ w'.trades[w.trades.length]? = some t ∧
      0 ≤ t.openQty ∧ t.openQty ≤ x.openQty ∧ t.closes = x.closes := by
  unfold World.providerOpen at h
  rcases hpr : w.providers[p]? with _ | pr
  · rw [hpr] at h; cases h
  · rw [hpr] at h
    dsimp only at h
    rcases hkd : pr.kind with _ | _
    · rw [hkd] at h
      dsimp only at h
      rcases hn : netLoop p w x (w.openedTrades pr) with err | ⟨u, x'⟩
      · rw [hn] at h; cases h
      · rw [hn] at h
        obtain ⟨n1, n2, n3, -⟩ := netLoop_length _ _ _ _ _ hn
        obtain ⟨m1, m2, m3⟩ := netLoop_le _ _ _ _ _ hw hx hn
        have ht : w'.trades = u.trades ++ [x'] := by
          change (if x'.openQty ≤ 0 then _ else _) = Except.ok w' at h
          split_ifs at h
          · injection h with h; rw [← h]
          · injection h with h; rw [← h, (register_epics _ _ _ _).2.2]
        refine ⟨x', n2, n3, ?_, ?_, m1, m2, m3⟩
        · rw [ht, List.length_append, List.length_singleton, n1]
        · rw [ht, ← n1]; exact List.getElem?_concat_length
    · rw [hkd] at h
      injection h with h
      have ht : w'.trades = w.trades ++ [x] := by rw [← h, (register_epics _ _ _ _).2.2]
      refine ⟨x, rfl, rfl, ?_, ?_, hx, le_refl _, rfl⟩
      · rw [ht, List.length_append, List.length_singleton]
      · rw [ht]; exact List.getElem?_concat_length

/-- What an operation adds to the trades: at most one, with at most the quantity asked for. -/
theorem step_new {w : World} (hw : NonNeg w) (o : Op) (hv : o.Valid) :
    (w.step o).1.trades.length = w.trades.length ∨
    ∃ t d q, o = .openTrade t.epic t.strategy d q ∧ (w.step o).1.trades.length = w.trades.length + 1 ∧
      (w.step o).1.trades[w.trades.length]? = some t ∧ 0 ≤ t.openQty ∧ t.openQty ≤ q ∧ t.closes = [] := by
  have hk : ∀ r : Except PyErr World, (∀ w', r = .ok w' → w'.trades.length = w.trades.length) → (orKeep w r).1.trades.length = w.trades.length := by
    intro r hr
    cases r with
    | error e => rfl
    | ok w' => exact hr w' rfl
  cases o with
  | openTrade e s d q =>
    simp only [World.step]
    rcases hep : w.epics[e]? with _ | ep
    · exact .inl rfl
    · dsimp only
      split_ifs with hs
      · rcases hx : Trade.openFromTick ep.lastTick e d q s with err | x
        · exact .inl rfl
        · obtain ⟨f1, f2, f3, f4, -⟩ := openFromTick_fresh hx
          have hv0 : 0 ≤ x.openQty := by rw [f3]; exact hv
          rcases hp : w.providerOpen ep.provider x with err | w'
          · left
            show (orKeep w (w.providerOpen ep.provider x)).1.trades.length = _
            rw [hp]; rfl
          · obtain ⟨t, t1, t2, t3, t4, t5, t6, t7⟩ := providerOpen_new hw hv0 hp
            right
            refine ⟨t, d, q, by rw [t1, t2, f1, f2], ?_, ?_, t5, by rw [f3] at t6; exact t6, t7.trans f4⟩
            · show (orKeep w (w.providerOpen ep.provider x)).1.trades.length = _
              rw [hp]; exact t3
            · show (orKeep w (w.providerOpen ep.provider x)).1.trades[_]? = _
              rw [hp]; exact t4
      · exact .inl rfl
  | closeTrade e j q =>
    refine .inl (hk _ (fun w' h => ?_))
    unfold World.closeTrade at h
    split at h
    · cases h
    · obtain ⟨t', ep, -, -, rfl⟩ := closeOn_eq h
      exact List.length_set
  | closeOpened s q =>
    left
    simp only [World.step]
    rcases w.strategies[s]? with _ | st
    · rfl
    · exact hk _ (fun w' h => closeOpenedLoop_length _ _ _ h)
  | update j v => exact .inl (List.length_modify _ _ _)
  | close j v dt q => exact .inl (List.length_modify _ _ _)
  | pause s d => exact .inl rfl
  | stop s b => exact .inl rfl
  | thread p j st => exact .inl (runThread_length _ _ _ _)

/-- The part of `Sound` that only concerns providers and trades. -/
structure Orderly (w : World) : Prop where
  epics : EpicsOk w
  nonNeg : NonNeg w
  closes : ∀ t ∈ w.trades, ∀ c ∈ t.closes, 0 ≤ c.qty

theorem Orderly.wsteps {w w' : World} (h : Orderly w) (hp : WSteps True w w') : Orderly w' := by
  refine WSteps.inv (V := True) (I := Orderly) ?_ hp h
  intro a b ha hb
  refine ⟨hb.epicsOk ha.epics, ?_, ?_⟩
  · cases hb with
    | prim hp => exact hp.nonNeg ha.nonNeg
    | log ev => exact ha.nonNeg
    | epics es _ => exact ha.nonNeg
  · cases hb with
    | prim hp => exact hp.perTrade closes_inv (fun _ => ha.nonNeg) ha.closes
    | log ev => exact ha.closes
    | epics es _ => exact ha.closes

/-- Steps without new trades make no measure larger. -/
theorem gross_wsteps {m : ℤ → ℤ} (hm : Monotone m) {K : ℕ → Option ℕ → Bool} {w w' : World} (h : Orderly w) (hp : WSteps True w w') (l : List Trade)
    (hl : w'.trades = l ++ w'.trades.drop w.trades.length) (hlen : l.length = w.trades.length) : gross m K l ≤ gross m K w.trades := by
  refine gross_le hlen (fun i t u ht hu => ?_)
  have hi := getElem?_lt hu
  have hu' : w'.trades[i]? = some u := by rw [hl, List.getElem?_append_left hi]; exact hu
  obtain ⟨u', h1, h2⟩ := hp.kept i t ht
  rw [hu'] at h1; injection h1 with h1; subst h1
  exact ⟨h2.epic, h2.strategy, hm (h2.openedQty_le ((h.wsteps hp).closes u (List.mem_of_getElem? hu')))⟩

theorem gross_same {m : ℤ → ℤ} (hm : Monotone m) {K : ℕ → Option ℕ → Bool} {w w' : World} (h : Orderly w) (hp : WSteps True w w')
    (hlen : w'.trades.length = w.trades.length) : gross m K w'.trades ≤ gross m K w.trades :=
  gross_wsteps hm h hp _ (by rw [← hlen, List.drop_length, List.append_nil]) hlen

/-- The measure of what an operation asks for. -/
def asked (m : ℤ → ℤ) (K : ℕ → Option ℕ → Bool) : Op → ℤ
  | .openTrade e s _ q => if K e s then m q else 0
  | _ => 0

/-- An operation adds at most the measure of what it asks for. -/
theorem step_gross {m : ℤ → ℤ} (hm : Monotone m) (hm0 : 0 ≤ m 0) {K : ℕ → Option ℕ → Bool} {w : World} (h : Orderly w) (o : Op) (hv : o.Valid) :
    gross m K (w.step o).1.trades ≤ gross m K w.trades + asked m K o := by
  have hs : WSteps True w (w.step o).1 := Steps.lift (step_steps h.epics (fun _ => hv))
  have h0 : 0 ≤ asked m K o := by
    cases o with
    | openTrade e s d q =>
      show 0 ≤ if K e s then m q else 0
      split_ifs
      · exact hm0.trans (hm hv)
      · exact le_refl _
    | _ => exact le_refl _
  rcases step_new h.nonNeg o hv with hl | ⟨t, d, q, rfl, h1, h2, h3, h4, h5⟩
  · have := gross_same hm (K := K) h hs hl
    omega
  · have ht : (w.step (.openTrade t.epic t.strategy d q)).1.trades = (w.step (.openTrade t.epic t.strategy d q)).1.trades.take w.trades.length ++ [t] := by
      have hd : (w.step (.openTrade t.epic t.strategy d q)).1.trades.drop w.trades.length = [t] := by
        rw [List.drop_eq_getElem_cons (by omega), List.drop_eq_nil_of_le (by omega)]
        congr 1
        have := List.getElem?_eq_getElem (l := (w.step (.openTrade t.epic t.strategy d q)).1.trades) (i := w.trades.length) (by omega)
        rw [h2] at this; injection this with this; exact this.symm
      rw [← hd, List.take_append_drop]
    have hg := gross_wsteps hm (K := K) h hs ((w.step (.openTrade t.epic t.strategy d q)).1.trades.take w.trades.length)
      (List.take_append_drop _ _).symm (by rw [List.length_take]; omega)
    rw [ht, gross_append]
    have hq : t.openedQty = t.openQty := by unfold Trade.openedQty Trade.closedQty; rw [h5]; simp
    have : gross m K [t] ≤ if K t.epic t.strategy then m q else 0 := by
      unfold gross
      simp only [List.map_cons, List.map_nil, List.sum_cons, List.sum_nil, add_zero]
      split_ifs
      · rw [hq]; exact hm h4
      · exact le_refl _
    have ha : asked m K (.openTrade t.epic t.strategy d q) = if K t.epic t.strategy then m q else 0 := rfl
    omega

/-! ## User code that looks before it acts -/

/-- The operations a program performs from state `w` on satisfy `P` in the state each of them finds. -/
def Prog.Obeys (P : World → Op → Prop) : Prog → World → Prop
  | .done, _ => True
  | .raise _, _ => True
  | .act o k, w => P w o ∧ (k (w.step o).1 (w.step o).2).Obeys P (w.step o).1

/-- The operations of the main program satisfy `P` in the state each of them finds. -/
def Spec.Heeds (env : Env) (P : World → Op → Prop) : World → List Cmd → Prop
  | _, [] => True
  | w, c :: l => (∀ o, c = .op o → P w o) ∧ Spec.Heeds env P (w.exec env c).1 l

theorem prog_obeys {I : World → Prop} {P : World → Op → Prop} (hop : ∀ w o, P w o → I w → I (w.step o).1) (p : Prog) :
    ∀ (w : World), p.Obeys P w → I w → I (p.run w).1 := by
  induction p with
  | done => intro w _ hw; exact hw
  | raise e => intro w _ hw; exact hw
  | act o k ih => intro w hp hw; exact ih _ _ _ hp.2 (hop w o hp.1 hw)

/-- `run_inv` for rules that look at the state. -/
theorem run_obeys {I : World → Prop} {P : World → Op → Prop} (hop : ∀ w o, P w o → I w → I (w.step o).1)
    (hrest : ∀ w w' : World, w'.trades = w.trades → w'.providers = w.providers →
      w'.epics.map Epic.provider = w.epics.map Epic.provider → I w → I w')
    (hupd : ∀ w p k, I w → I (w.updateOpenTrades p k)) {env : Env} (henv : ∀ s cb e w, I w → (env s cb e w).Obeys P w)
    (l : List Cmd) : ∀ (w : World), Spec.Heeds env P w l → I w → I (w.runCmds env l) := by
  have hcall : ∀ (w : World) s cb e, I w → I (w.call env s cb e).1 := by
    intro w s cb e hw
    unfold World.call
    have hw' := hrest w { w with log := w.log ++ [.notify s e cb] } rfl rfl rfl hw
    exact prog_obeys hop _ _ (henv s cb e _ hw') hw'
  have hif : ∀ c (w : World) s cb e, I w → I (w.callIf env c s cb e).1 := by
    intro c w s cb e hw
    unfold World.callIf
    split_ifs
    · exact hcall w s cb e hw
    · exact hw
  have hthen : ∀ (r : World × Option PyErr) (f : World → World × Option PyErr), I r.1 → (∀ w, I w → I (f w).1) →
      I (andThen r f).1 := by
    intro r f hr hf
    rcases andThen_cases r f with ⟨-, h⟩ | ⟨-, h⟩ <;> rw [h]
    · exact hf _ hr
    · exact hr
  have hall : ∀ (w : World) e s b, I w → I (w.notifyAll env e s b).1 := by
    intro w e s b hw
    unfold World.notifyAll
    exact hthen _ _ (hif _ _ _ _ _ hw) fun w hw => hthen _ _ (hif _ _ _ _ _ hw) fun w hw =>
      hthen _ _ (hif _ _ _ _ _ hw) fun w hw => hcall _ _ _ _ hw
  have hexec : ∀ (l : List ℕ) (w : World) e b dt, I w → I (execStrategies env e b dt w l).1 := by
    intro l
    induction l with
    | nil => intro w e b dt hw; exact hw
    | cons s rest ih =>
      intro w e b dt hw
      unfold execStrategies
      refine hthen _ _ ?_ (fun w hw => ih w e b dt hw)
      unfold World.execStrategy
      split
      · exact hw
      · dsimp only
        split_ifs
        · exact hall _ _ _ _ (hrest w _ rfl rfl rfl hw)
        · exact hrest w _ rfl rfl rfl hw
  have htick : ∀ (w : World) e k, I w → I (w.onNewTick env e k).1 := by
    intro w e k hw
    unfold World.onNewTick
    split
    · exact hw
    · rename_i ep hep
      dsimp only
      split_ifs
      · exact hw
      · split
        · exact hrest w _ rfl rfl (map_provider_set _ _ _ _ hep rfl) hw
        · exact hexec _ _ _ _ _ (hupd _ _ _ (hrest w _ rfl rfl (map_provider_set _ _ _ _ hep rfl) hw))
  induction l with
  | nil => intro w _ hw; exact hw
  | cons c l ih =>
    intro w hl hw
    refine ih _ hl.2 ?_
    by_cases hc : ∃ o, c = .op o
    · obtain ⟨o, rfl⟩ := hc
      exact hop w o (hl.1 o rfl) hw
    · by_cases ht : ∃ e k, c = .tick e k
      · obtain ⟨e, k, rfl⟩ := ht
        exact htick w e k hw
      · push Not at hc ht
        have := run_inv (I := I) (Q := fun _ => False) (env := fun _ _ _ _ => .done) (fun _ _ h => h.elim) hrest hupd (fun _ _ _ _ => trivial) [c]
          (by intro o ho; simp only [List.mem_singleton] at ho; exact (hc o ho.symm).elim) w hw
        cases c with
        | tick e k => exact (ht e k rfl).elim
        | op o => exact (hc o rfl).elim
        | addFrameSet e ref fs => exact this
        | addStrategy e s => exact this
        | addIndicator e ref ind => exact this

theorem update_gross {m : ℤ → ℤ} (hm : Monotone m) {K : ℕ → Option ℕ → Bool} {w : World} (h : Orderly w) (p : ℕ) (k : Tick) :
    Orderly (w.updateOpenTrades p k) ∧ gross m K (w.updateOpenTrades p k).trades ≤ gross m K w.trades := by
  have hs := Steps.lift (updateOpenTrades_steps (V := True) w p k)
  exact ⟨h.wsteps hs, gross_same hm h hs (updateOpenTrades_length w p k)⟩

end
end Estrade
