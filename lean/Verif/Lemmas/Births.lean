import Verif.Lemmas.Fills
import Verif.Props.Final

/-!
# Where and when trades are opened
-/

set_option linter.unusedSectionVars false
set_option autoImplicit false

namespace Estrade

section
variable [Arith]

/-- What every state of a valid run satisfies. -/
structure Sound (w : World) : Prop where
  epics : EpicsOk w
  reg : RegInv w
  nonNeg : NonNeg w
  closes : ∀ t ∈ w.trades, ∀ c ∈ t.closes, 0 ≤ c.qty

theorem closes_inv : TradeInv True (fun t => ∀ c ∈ t.closes, 0 ≤ c.qty) := by
  refine ⟨?_, ?_, ?_, fun _ _ h => h, ?_⟩
  · intro t ht _ c hc; rw [ht] at hc; cases hc
  · intro t v ht c hc
    rw [Trade.update_closes] at hc
    exact ht c hc
  · intro t v dt q ht h0 hq c hc
    unfold Trade.close at hc
    simp only [List.mem_append, List.mem_singleton] at hc
    rcases hc with hc | rfl
    · exact ht c hc
    · exact (Trade.closeQty_bounds (h0 trivial) (q := q) (hq trivial)).1
  · intro t k st ht
    exact mem_modify_inv ht k _ (fun c _ hc => hc)

theorem Sound.wprim {w w' : World} (h : Sound w) (hp : WPrim True w w') : Sound w' := by
  refine ⟨hp.epicsOk h.epics, hp.regInv h.reg, ?_, ?_⟩
  · cases hp with
    | prim hp => exact hp.nonNeg h.nonNeg
    | log ev => exact h.nonNeg
    | epics es _ => exact h.nonNeg
  · cases hp with
    | prim hp => exact hp.perTrade closes_inv (fun _ => h.nonNeg) h.closes
    | log ev => exact h.closes
    | epics es _ => exact h.closes

theorem Sound.wsteps {w w' : World} (h : Sound w) (hp : WSteps True w w') : Sound w' := WSteps.inv (fun _ _ ha hb => ha.wprim hb) hp h

theorem Sound.init {w : World} (h : w.Init) : Sound w :=
  ⟨Init.epicsOk h, Init.regInv h, (by intro t ht; rw [h.trades] at ht; cases ht), (by intro t ht; rw [h.trades] at ht; cases ht)⟩

theorem WPrim.kept {V : Prop} {w w' : World} (h : WPrim V w w') : KeptAll w.trades w'.trades := by
  cases h with
  | prim h =>
    rcases h.registry with hq | ⟨t, p, hf, hq, rfl⟩ | ⟨t, p, hf, rfl⟩
    · exact hq.kept
    · exact .append _ _
    · rw [(register_epics _ _ _ _).2.2]; exact .append _ _
  | log ev => exact .refl _
  | epics es h => exact .refl _

theorem WSteps.kept {V : Prop} {w w' : World} (h : WSteps V w w') : KeptAll w.trades w'.trades := by
  induction h with
  | refl => exact .refl _
  | tail _ hp ih => exact ih.trans hp.kept

/-- Closed trades stay closed. -/
def StayShut (w w' : World) : Prop := ∀ (i : ℕ) t, w.trades[i]? = some t → t.closed = true → ∃ u, w'.trades[i]? = some u ∧ u.closed = true

theorem WSteps.stayShut {w w' : World} (hs : Sound w) (h : WSteps True w w') : StayShut w w' := by
  intro i t ht hc
  have := WSteps.inv (V := True) (I := fun x => NonNeg x ∧ ∃ u, x.trades[i]? = some u ∧ Settled t u) ?_ h ⟨hs.nonNeg, t, ht, .refl hc⟩
  · obtain ⟨-, u, h1, h2⟩ := this
    exact ⟨u, h1, h2.closed⟩
  · intro a b ha hb
    cases hb with
    | prim h => exact ⟨h.nonNeg ha.1, h.settled ha.1 ha.2⟩
    | log ev => exact ha
    | epics es h => exact ha

/-- The epics stay as they are, trades are kept, and new ones are opened at the last tick of their epic, where `R` allows. -/
structure GrowsBy (V : Prop) (R : ℕ → Option ℕ → Prop) (w w' : World) : Prop where
  epics : w'.epics = w.epics
  steps : WSteps V w w'
  born : ∀ (i : ℕ) t, w.trades.length ≤ i → w'.trades[i]? = some t →
    R t.epic t.strategy ∧ ∃ ep, w.epics[t.epic]? = some ep ∧ t.dt = ep.lastTick.dt

theorem GrowsBy.refl {V : Prop} {R : ℕ → Option ℕ → Prop} (w : World) : GrowsBy V R w w :=
  ⟨rfl, .refl, fun i t hi ht => absurd (getElem?_lt ht) (by omega)⟩

theorem GrowsBy.trans {V : Prop} {R : ℕ → Option ℕ → Prop} {a b c : World} (h : GrowsBy V R a b) (g : GrowsBy V R b c) : GrowsBy V R a c := by
  refine ⟨g.epics.trans h.epics, h.steps.trans g.steps, fun i t hi ht => ?_⟩
  by_cases hb : i < b.trades.length
  · obtain ⟨u, hu, hk⟩ := g.steps.kept i _ (List.getElem?_eq_getElem hb)
    rw [ht] at hu; injection hu with hu; subst hu
    obtain ⟨h1, h2⟩ := h.born i _ hi (List.getElem?_eq_getElem hb)
    rw [hk.epic, hk.strategy, hk.dt]
    exact ⟨h1, h2⟩
  · have := g.born i t (by omega) ht
    rw [h.epics] at this
    exact this

theorem netLoop_length {p : ℕ} (l : List ℕ) : ∀ (w w' : World) (new new' : Trade), netLoop p w new l = .ok (w', new') →
    w'.trades.length = w.trades.length ∧ new'.epic = new.epic ∧ new'.strategy = new.strategy ∧ new'.dt = new.dt := by
  induction l with
  | nil =>
    intro w w' new new' h
    injection h with h; injection h with h1 h2
    subst h1 h2; exact ⟨rfl, rfl, rfl, rfl⟩
  | cons i rest ih =>
    intro w w' new new' h
    unfold netLoop at h
    split at h
    · cases h
    · rename_i t ht
      split_ifs at h with hd hs
      · exact ih w w' new new' h
      · simp only at h
        rcases hc : w.closeOn p i (some (min t.openedQty new.openQty)) with err | u
        · rw [hc] at h; cases h
        · rw [hc] at h
          obtain ⟨t', ep, -, -, rfl⟩ := closeOn_eq hc
          obtain ⟨g1, g2, g3, g4⟩ := ih _ _ _ _ h
          exact ⟨by rw [g1]; exact List.length_set, g2, g3, g4⟩
      · exact ih w w' new new' h

theorem closeOpenedLoop_length {q : Option ℤ} (l : List ℕ) : ∀ (w w' : World), closeOpenedLoop q w l = .ok w' →
    w'.trades.length = w.trades.length := by
  induction l with
  | nil => intro w w' h; injection h with h; subst h; rfl
  | cons i rest ih =>
    intro w w' h
    unfold closeOpenedLoop at h
    split at h
    · cases h
    · split_ifs at h
      · exact ih w w' h
      · simp only [bind, Except.bind] at h
        split at h
        · cases h
        · rename_i t _ _ w1 h1
          unfold World.closeTrade at h1
          split at h1
          · cases h1
          · obtain ⟨t', ep, -, -, rfl⟩ := closeOn_eq h1
            rw [ih _ _ h]
            exact List.length_set

theorem runThread_length (w : World) (p i : ℕ) (st : Option Status) : (w.runThread p i st).1.trades.length = w.trades.length := by
  unfold World.runThread
  have hs : ∀ (u : World) (tg : Target) (st : Status), (u.setStatus tg st).trades.length = u.trades.length := by
    intro u tg st; cases tg <;> exact List.length_modify _ _ _
  rcases w.providers[p]? with _ | pr
  · rfl
  · dsimp only
    rcases pr.threads[i]? with _ | th
    · rfl
    · dsimp only
      split_ifs
      · cases pr.kind
        · exact hs _ _ _
        · cases st
          · rfl
          · exact hs _ _ _
      · rfl

/-- Only `open_trade` creates trades, on the epic and for the strategy it is called with. -/
theorem step_born (w : World) (o : Op) (i : ℕ) (t : Trade) (hi : w.trades.length ≤ i) (ht : (w.step o).1.trades[i]? = some t) :
    ∃ d q ep, o = .openTrade t.epic t.strategy d q ∧ w.epics[t.epic]? = some ep ∧ t.dt = ep.lastTick.dt := by
  have hno : (w.step o).1.trades.length = w.trades.length → False := by
    intro h
    have := getElem?_lt ht
    omega
  have hk : ∀ r : Except PyErr World, (∀ w', r = .ok w' → w'.trades.length = w.trades.length) → (orKeep w r).1.trades.length = w.trades.length := by
    intro r hr
    cases r with
    | error e => rfl
    | ok w' => exact hr w' rfl
  cases o with
  | openTrade e s d q =>
    simp only [World.step] at ht hno
    rcases hep : w.epics[e]? with _ | ep
    · rw [hep] at hno; exact (hno rfl).elim
    · rw [hep] at ht hno
      dsimp only at ht hno
      split_ifs at ht hno with hs
      · rcases hx : Trade.openFromTick ep.lastTick e d q s with err | x
        · rw [hx] at hno; exact (hno rfl).elim
        · rw [hx] at ht hno
          obtain ⟨f1, f2, -⟩ := openFromTick_fresh hx
          obtain ⟨f3, -⟩ := openFromTick_born hx
          have happ : ∀ (l : List Trade) (y : Trade), l.length = w.trades.length → (l ++ [y])[i]? = some t → t = y := by
            intro l y hl h
            have := getElem?_lt h
            rw [List.length_append, List.length_singleton] at this
            rw [List.getElem?_append_right (by omega), show i - l.length = 0 by omega] at h
            injection h with h; exact h.symm
          suffices hy : t.epic = x.epic ∧ t.strategy = x.strategy ∧ t.dt = x.dt by
            obtain ⟨y1, y2, y3⟩ := hy
            rw [y1, y2, y3, f1, f2, f3]
            exact ⟨d, q, ep, rfl, hep, rfl⟩
          change (orKeep w (w.providerOpen ep.provider x)).1.trades[i]? = some t at ht
          change (orKeep w (w.providerOpen ep.provider x)).1.trades.length = w.trades.length → False at hno
          unfold World.providerOpen at ht hno
          rcases hpr : w.providers[ep.provider]? with _ | pr
          · rw [hpr] at hno; exact (hno rfl).elim
          · rw [hpr] at ht hno
            dsimp only at ht hno
            rcases hkd : pr.kind with _ | _
            · rw [hkd] at ht hno
              dsimp only at ht hno
              rcases hn : netLoop ep.provider w x (w.openedTrades pr) with err | ⟨u, x'⟩
              · rw [hn] at hno; exact (hno rfl).elim
              · rw [hn] at ht
                obtain ⟨n1, n2, n3, n4⟩ := netLoop_length _ _ _ _ _ hn
                change (orKeep w (if x'.openQty ≤ 0 then _ else _)).1.trades[i]? = some t at ht
                split_ifs at ht
                · obtain rfl := happ _ _ n1 ht
                  exact ⟨n2, n3, n4⟩
                · change (World.register _ _ _ _).trades[i]? = some t at ht
                  rw [(register_epics _ _ _ _).2.2] at ht
                  obtain rfl := happ _ _ n1 ht
                  exact ⟨n2, n3, n4⟩
            · rw [hkd] at ht
              change (World.register _ _ _ _).trades[i]? = some t at ht
              rw [(register_epics _ _ _ _).2.2] at ht
              obtain rfl := happ _ _ rfl ht
              exact ⟨rfl, rfl, rfl⟩
      · exact (hno rfl).elim
  | closeTrade e j q =>
    refine (hno (hk _ (fun w' h => ?_))).elim
    unfold World.closeTrade at h
    split at h
    · cases h
    · obtain ⟨t', ep, -, -, rfl⟩ := closeOn_eq h
      exact List.length_set
  | closeOpened s q =>
    refine (hno ?_).elim
    simp only [World.step]
    rcases w.strategies[s]? with _ | st
    · rfl
    · exact hk _ (fun w' h => closeOpenedLoop_length _ _ _ h)
  | update j v => exact (hno (List.length_modify _ _ _)).elim
  | close j v dt q => exact (hno (List.length_modify _ _ _)).elim
  | pause s d => exact (hno rfl).elim
  | stop s b => exact (hno rfl).elim
  | thread p j st => exact (hno (runThread_length _ _ _ _)).elim

theorem step_grows {V : Prop} {R : ℕ → Option ℕ → Prop} {w : World} (hw : EpicsOk w) {o : Op} (hv : V → o.Valid)
    (hR : ∀ e s d q, o = .openTrade e s d q → R e s) : GrowsBy V R w (w.step o).1 := by
  refine ⟨(step_epics w o).1, (step_steps hw hv).lift, fun i t hi ht => ?_⟩
  obtain ⟨d, q, ep, h1, h2, h3⟩ := step_born w o i t hi ht
  exact ⟨hR _ _ _ _ h1, ep, h2, h3⟩

theorem prog_grows {V : Prop} {R : ℕ → Option ℕ → Prop} (p : Prog) (w : World) (hw : EpicsOk w)
    (hp : p.All (fun o => (V → o.Valid) ∧ ∀ e s d q, o = .openTrade e s d q → R e s)) : GrowsBy V R w (p.run w).1 := by
  induction p generalizing w with
  | done => exact .refl w
  | raise e => exact .refl w
  | act o k ih =>
    have h1 := step_grows (R := R) hw hp.1.1 hp.1.2
    exact h1.trans (ih _ _ _ (h1.steps.epicsOk hw) (hp.2 _ _))

/-- What the callbacks of strategy `s'` on epic `e` may do in a state with the epics `E`. -/
def Callback (V : Prop) (R : ℕ → Option ℕ → Prop) (env : Env) (E : List Epic) (s' e : ℕ) : Prop :=
  ∀ cb (w : World), w.epics = E → (env s' cb e w).All (fun o => (V → o.Valid) ∧ ∀ e s d q, o = .openTrade e s d q → R e s)

theorem note_grows {V : Prop} {R : ℕ → Option ℕ → Prop} (w : World) (ev : Event) : GrowsBy V R w { w with log := w.log ++ [ev] } :=
  ⟨rfl, .single (.log ev), (GrowsBy.refl (V := V) (R := R) w).born⟩

theorem call_grows {V : Prop} {R : ℕ → Option ℕ → Prop} {env : Env} {w : World} (hw : EpicsOk w) {s' e : ℕ}
    (h : Callback V R env w.epics s' e) (cb : Cb) : GrowsBy V R w (w.call env s' cb e).1 :=
  (note_grows w (.notify s' e cb)).trans (prog_grows _ _ hw (h cb { w with log := w.log ++ [.notify s' e cb] } rfl))

theorem callIf_grows {V : Prop} {R : ℕ → Option ℕ → Prop} {env : Env} {w : World} (hw : EpicsOk w) {s' e : ℕ}
    (h : Callback V R env w.epics s' e) (c : Bool) (cb : Cb) : GrowsBy V R w (w.callIf env c s' cb e).1 := by
  unfold World.callIf
  split_ifs
  · exact call_grows hw h cb
  · exact .refl w

theorem andThen_grows {V : Prop} {R : ℕ → Option ℕ → Prop} {w : World} {r : World × Option PyErr} {f : World → World × Option PyErr}
    (h1 : GrowsBy V R w r.1) (h2 : ∀ u, GrowsBy V R w u → GrowsBy V R u (f u).1) : GrowsBy V R w (andThen r f).1 := by
  rcases andThen_cases r f with ⟨-, h⟩ | ⟨-, h⟩
  · rw [h]; exact h1.trans (h2 _ h1)
  · rw [h]; exact h1

theorem notifyAll_grows {V : Prop} {R : ℕ → Option ℕ → Prop} {env : Env} {w : World} (hw : EpicsOk w) {s' e : ℕ}
    (h : Callback V R env w.epics s' e) (b : Bool) : GrowsBy V R w (w.notifyAll env e s' b).1 := by
  unfold World.notifyAll
  refine andThen_grows (callIf_grows hw h _ _) (fun u hu => ?_)
  have hw := hu.steps.epicsOk hw
  have h : Callback V R env u.epics s' e := by rw [hu.epics]; exact h
  refine andThen_grows (callIf_grows hw h _ _) (fun u hu => ?_)
  have hw := hu.steps.epicsOk hw
  have h : Callback V R env u.epics s' e := by rw [hu.epics]; exact h
  refine andThen_grows (callIf_grows hw h _ _) (fun u hu => ?_)
  have hw := hu.steps.epicsOk hw
  have h : Callback V R env u.epics s' e := by rw [hu.epics]; exact h
  exact call_grows hw h _

theorem set_grows {V : Prop} {R : ℕ → Option ℕ → Prop} {w : World} {s : ℕ} {st : Strategy} (dt : DT) (h : w.strategies[s]? = some st) :
    GrowsBy V R w { w with strategies := w.strategies.set s (st.isActive dt).2 } := by
  refine ⟨rfl, .single (.prim ?_), (GrowsBy.refl (V := V) (R := R) w).born⟩
  rw [set_eq_modify _ _ _ (fun x => (x.isActive dt).2) h]
  exact .strat s _ (fun x => ⟨(isActive_keeps x dt).1, (isActive_keeps x dt).2.1⟩)

theorem execStrategy_grows {V : Prop} {R : ℕ → Option ℕ → Prop} {env : Env} {w : World} (hw : EpicsOk w) {s' e : ℕ}
    (h : Callback V R env w.epics s' e) (b : Bool) (dt : DT) : GrowsBy V R w (w.execStrategy env e s' b dt).1 := by
  unfold World.execStrategy
  rcases hs : w.strategies[s']? with _ | st
  · exact .refl w
  · simp only
    have g := set_grows (V := V) (R := R) dt hs
    split_ifs
    · exact g.trans (notifyAll_grows (g.steps.epicsOk hw) h b)
    · exact g

theorem execStrategies_grows {V : Prop} {R : ℕ → Option ℕ → Prop} {env : Env} {e : ℕ} {b : Bool} {dt : DT} (l : List ℕ) : ∀ {w : World},
    EpicsOk w → (∀ s' ∈ l, Callback V R env w.epics s' e) → GrowsBy V R w (execStrategies env e b dt w l).1 := by
  induction l with
  | nil => intro w _ _; exact .refl w
  | cons s' rest ih =>
    intro w hw h
    unfold execStrategies
    have g := execStrategy_grows (R := R) hw (h s' (by simp)) b dt
    refine andThen_grows g (fun u hu => ih (hu.steps.epicsOk hw) (fun x hx => ?_))
    rw [hu.epics]
    exact h x (by simp [hx])

end
end Estrade
