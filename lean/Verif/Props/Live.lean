import Verif.Lemmas.WorldLog
import Verif.Lemmas.Fills
import Verif.Lemmas.Registry
import Verif.Demo

/-!
# C87: a backtest does what a broker would do
-/

set_option autoImplicit false
set_option linter.style.haveILetI false
set_option linter.unusedSectionVars false

namespace Estrade

section
variable [Arith]

/-! ## Specification -/

/-- Spec: the provider of a broker in place of the one for backtests. -/
def Spec.liveProvider (p : Provider) : Provider := { p with kind := .custom }

/-- Spec: the same world with brokers. -/
def Spec.liveWorld (w : World) : World := { w with providers := w.providers.map Spec.liveProvider }

/-- Spec: the operation when brokers confirm whatever a backtest would confirm; `ks`: classes of the providers. -/
def Spec.liveOp (ks : List ProviderKind) : Op → Op
  | .thread p i st => .thread p i (if ks[p]? = some .backtests then some .confirmed else st)
  | o => o

/-- Spec: the command when brokers confirm whatever a backtest would confirm. -/
def Spec.liveCmd (ks : List ProviderKind) : Cmd → Cmd
  | .op o => .op (Spec.liveOp ks o)
  | c => c

/-- Spec: user code that takes the same decisions with backtests and with brokers. -/
inductive Spec.LiveProg (ks : List ProviderKind) : Prog → Prog → Prop
  | done : LiveProg ks .done .done
  | raise (e : PyErr) : LiveProg ks (.raise e) (.raise e)
  | act (o : Op) (k k' : World → Option PyErr → Prog)
      (h : ∀ w r, w.providers.map Provider.kind = ks → LiveProg ks (k w r) (k' (Spec.liveWorld w) r)) :
      LiveProg ks (.act o k) (.act (Spec.liveOp ks o) k')

/-- Spec: callbacks that take the same decisions with backtests and with brokers. -/
def Spec.LiveEnv (ks : List ProviderKind) (env env' : Env) : Prop :=
  ∀ s cb e w, w.providers.map Provider.kind = ks → Spec.LiveProg ks (env s cb e w) (env' s cb e (Spec.liveWorld w))

/-- Spec: an operation that does not open a trade against an open one: a trade opened with backtests has a positive quantity,
and all open trades of its strategy at the provider have its direction. -/
def Spec.Plain (w : World) : Op → Prop
  | .openTrade e s d q => ∀ ep pr, w.epics[e]? = some ep → w.providers[ep.provider]? = some pr → pr.kind = .backtests →
      0 < q ∧ ∀ i ∈ pr.trades, ∀ t, w.trades[i]? = some t → t.strategy = s → t.closed = false → ∀ x, d = some x → t.dir = x
  | _ => True

/-- Spec: user code that, run in a world, performs such operations only. -/
inductive Spec.Careful : Prog → World → Prop
  | done (w : World) : Careful .done w
  | raise (e : PyErr) (w : World) : Careful (.raise e) w
  | act (o : Op) (k : World → Option PyErr → Prog) (w : World) (ho : Spec.Plain w o)
      (hk : Careful (k (w.step o).1 (w.step o).2) (w.step o).1) : Careful (.act o k) w

/-- Spec: an operation by which a strategy opens trades of its own direction only, of positive quantities. -/
def Spec.OneSided (side : Option ℕ → Dir) : Op → Prop
  | .openTrade _ s d q => 0 < q ∧ ∀ x, d = some x → x = side s
  | _ => True

/-- Spec: the same for commands. -/
def Spec.OneSidedCmd (side : Option ℕ → Dir) : Cmd → Prop
  | .op o => Spec.OneSided side o
  | _ => True

/-! ## Labels of trades -/

/-- All trades have a strategy and a direction in the relation `P`. -/
def Labelled (P : Option ℕ → Dir → Prop) (w : World) : Prop := ∀ t ∈ w.trades, P t.strategy t.dir

/-- Opened trades are in the relation `P`. -/
def OpFits (P : Option ℕ → Dir → Prop) : Op → Prop
  | .openTrade _ s d _ => ∀ x, d = some x → P s x
  | _ => True

section
variable {P : Option ℕ → Dir → Prop}

theorem lab_congr {w w' : World} (h : w'.trades = w.trades) (hw : Labelled P w) : Labelled P w' := by
  intro t ht; rw [h] at ht; exact hw t ht

theorem lab_modify {w w' : World} (i : ℕ) (f : Trade → Trade) (hf : ∀ t, (f t).strategy = t.strategy ∧ (f t).dir = t.dir)
    (h : w'.trades = w.trades.modify i f) (hw : Labelled P w) : Labelled P w' := by
  intro t ht
  rw [h] at ht
  obtain ⟨n, hn⟩ := List.mem_iff_getElem?.mp ht
  rw [List.getElem?_modify] at hn
  rcases hb : w.trades[n]? with _ | b
  · rw [hb] at hn; simp at hn
  · rw [hb] at hn
    have h1 := hw b (List.mem_of_getElem? hb)
    simp only [Option.map_eq_map, Option.map_some, Option.some.injEq] at hn
    split_ifs at hn
    · rw [← hn, (hf b).1, (hf b).2]; exact h1
    · rw [← hn]; exact h1

theorem lab_append {w w' : World} (t : Trade) (ht : P t.strategy t.dir) (h : w'.trades = w.trades ++ [t]) (hw : Labelled P w) :
    Labelled P w' := by
  intro x hx
  rw [h] at hx
  rcases List.mem_append.mp hx with hx | hx
  · exact hw x hx
  · rw [List.mem_singleton.mp hx]; exact ht

theorem lab_closeOn {w w' : World} {p i : ℕ} {q : Option ℤ} (h : w.closeOn p i q = .ok w') (hw : Labelled P w) :
    Labelled P w' := by
  obtain ⟨t, ep, h1, -, rfl⟩ := closeOn_eq h
  intro x hx
  have hx' : x ∈ w.trades.set i (t.closeFromTick ep.lastTick q) := hx
  rcases List.mem_or_eq_of_mem_set hx' with h2 | h2
  · exact hw x h2
  · have hk := kept_closeFromTick t ep.lastTick q
    rw [h2, hk.strategy, hk.dir]
    exact hw t (List.mem_of_getElem? h1)

theorem lab_closeTrade {w w' : World} {e i : ℕ} {q : Option ℤ} (h : w.closeTrade e i q = .ok w') (hw : Labelled P w) :
    Labelled P w' := by
  unfold World.closeTrade at h
  rcases hep : w.epics[e]? with _ | ep
  · rw [hep] at h; cases h
  · rw [hep] at h; exact lab_closeOn h hw

theorem lab_closeOpenedLoop {q : Option ℤ} (l : List ℕ) : ∀ {w w' : World}, closeOpenedLoop q w l = .ok w' → Labelled P w →
    Labelled P w' := by
  induction l with
  | nil => intro w w' h hw; injection h with h; rw [← h]; exact hw
  | cons i rest ih =>
    intro w w' h hw
    unfold closeOpenedLoop at h
    rcases ht : w.trades[i]? with _ | t
    · rw [ht] at h; cases h
    · rw [ht] at h
      simp only at h
      split_ifs at h
      · exact ih h hw
      · rcases hc : w.closeTrade t.epic i q with err | u
        · rw [hc] at h; cases h
        · rw [hc] at h; exact ih h (lab_closeTrade hc hw)

theorem lab_netLoop {p : ℕ} (l : List ℕ) : ∀ {w w' : World} {new new' : Trade}, netLoop p w new l = .ok (w', new') →
    Labelled P w → Labelled P w' ∧ new'.strategy = new.strategy ∧ new'.dir = new.dir := by
  induction l with
  | nil => intro w w' new new' h hw; injection h with h; injection h with h1 h2; rw [← h1, ← h2]; exact ⟨hw, rfl, rfl⟩
  | cons i rest ih =>
    intro w w' new new' h hw
    unfold netLoop at h
    rcases ht : w.trades[i]? with _ | t
    · rw [ht] at h; cases h
    · rw [ht] at h
      simp only at h
      split_ifs at h
      · exact ih h hw
      · rcases hc : w.closeOn p i (some (min t.openedQty new.openQty)) with err | u
        · rw [hc] at h; cases h
        · rw [hc] at h
          exact ih (new := { new with openQty := new.openQty - min t.openedQty new.openQty }) h (lab_closeOn hc hw)
      · exact ih h hw

theorem register_trades (w : World) (p i : ℕ) (s : Option ℕ) : (w.register p i s).trades = w.trades := by
  rcases s with _ | s <;> rfl

theorem lab_providerOpen {w w' : World} {p : ℕ} {t : Trade} (h : w.providerOpen p t = .ok w') (ht : P t.strategy t.dir)
    (hw : Labelled P w) : Labelled P w' := by
  unfold World.providerOpen at h
  rcases hpr : w.providers[p]? with _ | pr
  · rw [hpr] at h; cases h
  · rw [hpr] at h
    simp only at h
    rcases hk : pr.kind with _ | _
    · rw [hk] at h
      simp only at h
      rcases hn : netLoop p w t (w.openedTrades pr) with err | ⟨u, t'⟩
      · rw [hn] at h; cases h
      · rw [hn] at h
        obtain ⟨h1, h2, h3⟩ := lab_netLoop _ hn hw
        simp only [bind, Except.bind] at h
        have ht' : P t'.strategy t'.dir := by rw [h2, h3]; exact ht
        split_ifs at h
        · injection h with h
          rw [← h]; exact lab_append t' ht' rfl h1
        · injection h with h
          rw [← h]; exact lab_append t' ht' (register_trades _ _ _ _) h1
    · rw [hk] at h
      injection h with h
      rw [← h]; exact lab_append t ht (register_trades _ _ _ _) hw

theorem lab_setStatus {w : World} (tg : Target) (st : Status) (hw : Labelled P w) : Labelled P (w.setStatus tg st) := by
  rcases tg with i | ⟨i, k⟩
  · exact lab_modify i (fun t => { t with status := st }) (fun _ => ⟨rfl, rfl⟩) rfl hw
  · exact lab_modify i (fun t => { t with closes := t.closes.modify k (fun c => { c with status := st }) })
      (fun _ => ⟨rfl, rfl⟩) rfl hw

theorem lab_orKeep {w : World} {r : Except PyErr World} (h : ∀ w', r = .ok w' → Labelled P w') (hw : Labelled P w) :
    Labelled P (orKeep w r).1 := by
  rcases r with e | w'
  · exact hw
  · exact h w' rfl

theorem lab_step {w : World} {o : Op} (ho : OpFits P o) (hw : Labelled P w) : Labelled P (w.step o).1 := by
  rcases o with ⟨e, s, d, q⟩ | ⟨e, t, q⟩ | ⟨s, q⟩ | ⟨t, v⟩ | ⟨t, v, dt, q⟩ | ⟨s, dt⟩ | ⟨s, b⟩ | ⟨p, i, st⟩
  · simp only [World.step]
    rcases w.epics[e]? with _ | ep
    · exact hw
    · simp only
      split_ifs
      · refine lab_orKeep ?_ hw
        intro w' h
        rcases ht : Trade.openFromTick ep.lastTick e d q s with err | t
        · rw [ht] at h; cases h
        · rw [ht] at h
          obtain ⟨-, h2, -, -, -, h6⟩ := openFromTick_fresh ht
          exact lab_providerOpen h (by rw [h2]; exact ho _ h6) hw
      · exact hw
  · exact lab_orKeep (fun w' h => lab_closeTrade h hw) hw
  · simp only [World.step]
    rcases w.strategies[s]? with _ | st
    · exact hw
    · exact lab_orKeep (fun w' h => lab_closeOpenedLoop _ h hw) hw
  · exact lab_modify t _ (fun x => ⟨(kept_update x v).strategy, (kept_update x v).dir⟩) rfl hw
  · exact lab_modify t (fun x => x.close v dt q) (fun x => ⟨(kept_close x v dt q).strategy, (kept_close x v dt q).dir⟩) rfl hw
  · exact hw
  · exact hw
  · simp only [World.step]
    unfold World.runThread
    rcases w.providers[p]? with _ | pr
    · exact hw
    · simp only
      rcases pr.threads[i]? with _ | th
      · exact hw
      · simp only
        split_ifs
        · rcases pr.kind
          · exact lab_setStatus (w := w.modProvider p _) _ _ hw
          · rcases st with _ | st
            · exact hw
            · exact lab_setStatus (w := w.modProvider p _) _ _ hw
        · exact hw

theorem lab_run (p : Prog) : ∀ {w : World}, p.All (OpFits P) → Labelled P w → Labelled P (p.run w).1 := by
  induction p with
  | done => intro w _ hw; exact hw
  | raise e => intro w _ hw; exact hw
  | act o k ih => intro w h hw; exact ih _ _ (h.2 _ _) (lab_step h.1 hw)

theorem lab_updateOpenTrades {w : World} (p : ℕ) (x : Tick) (hw : Labelled P w) : Labelled P (w.updateOpenTrades p x) := by
  unfold World.updateOpenTrades
  rcases w.providers[p]? with _ | pr
  · exact hw
  · simp only
    generalize w.openedTrades pr = l
    induction l generalizing w with
    | nil => exact hw
    | cons i rest ih =>
      exact ih (lab_modify i _ (fun t => ⟨(kept_update t _).strategy, (kept_update t _).dir⟩) rfl hw)

end

/-! ## Simulation -/

theorem live_provider? (w : World) (p : ℕ) : (Spec.liveWorld w).providers[p]? = (w.providers[p]?).map Spec.liveProvider :=
  List.getElem?_map ..

theorem live_modProvider (w : World) (p : ℕ) (f : Provider → Provider)
    (h : ∀ x, f (Spec.liveProvider x) = Spec.liveProvider (f x)) :
    (Spec.liveWorld w).modProvider p f = Spec.liveWorld (w.modProvider p f) := by
  unfold Spec.liveWorld World.modProvider
  simp only [World.mk.injEq, true_and, and_true]
  apply List.ext_getElem?
  intro n
  simp only [List.getElem?_map, List.getElem?_modify]
  rcases w.providers[n]? with _ | c
  · rfl
  · simp only [Option.map_some, Option.map_eq_map]; split_ifs
    · rw [h]
    · rfl

theorem live_closeOn (w : World) (p i : ℕ) (q : Option ℤ) :
    (Spec.liveWorld w).closeOn p i q = (w.closeOn p i q).map Spec.liveWorld := by
  unfold World.closeOn
  have h1 : (Spec.liveWorld w).trades = w.trades := rfl
  have h2 : (Spec.liveWorld w).epics = w.epics := rfl
  rw [h1, h2]
  rcases w.trades[i]? with _ | t
  · rfl
  · simp only
    rcases w.epics[t.epic]? with _ | e
    · rfl
    · simp only [Except.map]
      rw [← live_modProvider _ _ _ (by intro x; rfl)]
      rfl

theorem live_closeTrade (w : World) (e t : ℕ) (q : Option ℤ) :
    (Spec.liveWorld w).closeTrade e t q = (w.closeTrade e t q).map Spec.liveWorld := by
  unfold World.closeTrade
  have h2 : (Spec.liveWorld w).epics = w.epics := rfl
  rw [h2]
  rcases w.epics[e]? with _ | ep
  · rfl
  · exact live_closeOn w _ _ _

theorem live_closeOpenedLoop (q : Option ℤ) (l : List ℕ) : ∀ w : World,
    closeOpenedLoop q (Spec.liveWorld w) l = (closeOpenedLoop q w l).map Spec.liveWorld := by
  induction l with
  | nil => intro w; rfl
  | cons i rest ih =>
    intro w
    unfold closeOpenedLoop
    have h1 : (Spec.liveWorld w).trades = w.trades := rfl
    rw [h1]
    rcases w.trades[i]? with _ | t
    · rfl
    · simp only
      rw [live_closeTrade]
      split_ifs
      · exact ih w
      · rcases w.closeTrade t.epic i q with err | w'
        · rfl
        · exact ih w'

theorem live_register (w : World) (p i : ℕ) (s : Option ℕ) : (Spec.liveWorld w).register p i s = Spec.liveWorld (w.register p i s) := by
  unfold World.register
  rw [live_modProvider _ _ _ (by intro x; rfl)]
  rcases s with _ | s
  · exact live_modProvider _ _ _ (by intro x; rfl)
  · exact live_modProvider ((w.modProvider p _).modStrategy s _) p _ (by intro x; rfl)

/-- Nothing to net. -/
theorem netLoop_idle (p : ℕ) (w : World) (new : Trade) (l : List ℕ) (h : ∀ i ∈ l, ∃ t, w.trades[i]? = some t ∧
    (t.strategy = new.strategy → t.dir = new.dir)) : netLoop p w new l = .ok (w, new) := by
  induction l with
  | nil => rfl
  | cons i rest ih =>
    obtain ⟨t, h1, h2⟩ := h i List.mem_cons_self
    have ih' := ih (fun j hj => h j (List.mem_cons_of_mem _ hj))
    unfold netLoop
    rw [h1]
    simp only
    split_ifs with h3 h4
    · exact ih'
    · have h5 := h2 (not_not.mp h4)
      rw [h3] at h5
      rcases hd : new.dir <;> rw [hd] at h5 <;> cases h5
    · exact ih'

theorem live_providerOpen (w : World) (p : ℕ) (new : Trade)
    (h : ∀ pr, w.providers[p]? = some pr → pr.kind = .backtests → 0 < new.openQty ∧ ∀ i ∈ pr.trades, ∀ t,
      w.trades[i]? = some t → t.strategy = new.strategy → t.closed = false → t.dir = new.dir) :
    (Spec.liveWorld w).providerOpen p new = (w.providerOpen p new).map Spec.liveWorld := by
  unfold World.providerOpen
  rw [live_provider?]
  rcases hpr : w.providers[p]? with _ | pr
  · rfl
  · simp only [Option.map_some]
    have e1 : ∀ v : World, ({ Spec.liveWorld v with trades := (Spec.liveWorld v).trades ++ [new] } : World).register p v.trades.length new.strategy =
        Spec.liveWorld (({ v with trades := v.trades ++ [new] } : World).register p v.trades.length new.strategy) :=
      fun v => live_register { v with trades := v.trades ++ [new] } _ _ _
    have e2 : (Spec.liveProvider pr).kind = .custom := rfl
    rw [e2]
    rcases hk : pr.kind with _ | _
    · obtain ⟨h1, h2⟩ := h pr hpr hk
      have hn : netLoop p w new (w.openedTrades pr) = .ok (w, new) := by
        refine netLoop_idle p w new _ ?_
        intro i hi
        unfold World.openedTrades at hi
        rw [List.mem_filter, List.mem_reverse] at hi
        obtain ⟨hi1, hi2⟩ := hi
        rcases ht : w.trades[i]? with _ | t
        · rw [ht] at hi2; cases hi2
        · rw [ht] at hi2
          simp only [Bool.not_eq_true'] at hi2
          exact ⟨t, rfl, fun hs => h2 i hi1 t ht hs hi2⟩
      simp only [hn, bind, Except.bind]
      rw [if_neg (by omega)]
      exact congrArg Except.ok (e1 w)
    · exact congrArg Except.ok (e1 w)

theorem live_orKeep (w : World) (r : Except PyErr World) :
    orKeep (Spec.liveWorld w) (r.map Spec.liveWorld) = (Spec.liveWorld (orKeep w r).1, (orKeep w r).2) := by
  rcases r with e | w' <;> rfl

theorem live_runThread (w : World) (p i : ℕ) (st : Option Status) :
    (Spec.liveWorld w).runThread p i (if (w.providers.map Provider.kind)[p]? = some .backtests then some .confirmed else st) =
      (Spec.liveWorld (w.runThread p i st).1, (w.runThread p i st).2) := by
  unfold World.runThread
  rw [live_provider?, List.getElem?_map]
  rcases w.providers[p]? with _ | pr
  · rfl
  · simp only [Option.map_some]
    have h1 : (Spec.liveProvider pr).threads = pr.threads := rfl
    have h2 : (Spec.liveProvider pr).kind = .custom := rfl
    rw [h1, h2]
    rcases pr.threads[i]? with _ | th
    · rfl
    · simp only
      split_ifs with h3 h4
      · have h5 : pr.kind = .backtests := Option.some.inj h4
        rw [h5]
        simp only
        rw [live_modProvider _ _ _ (by intro x; rfl)]
        rcases th.target <;> rfl
      · rcases hk : pr.kind with _ | _
        · rw [hk] at h4; exact absurd rfl h4
        · simp only
          rw [live_modProvider _ _ _ (by intro x; rfl)]
          rcases st with _ | st
          · rfl
          · rcases th.target <;> rfl
      · rfl

/-- The outcome with brokers. -/
def liveOut (r : World × Option PyErr) : World × Option PyErr := (Spec.liveWorld r.1, r.2)

theorem live_step (w : World) (o : Op) (ho : Spec.Plain w o) :
    (Spec.liveWorld w).step (Spec.liveOp (w.providers.map Provider.kind) o) = liveOut (w.step o) := by
  have h1 : (Spec.liveWorld w).epics = w.epics := rfl
  have h2 : (Spec.liveWorld w).strategies = w.strategies := rfl
  rcases o with ⟨e, s, d, q⟩ | ⟨e, t, q⟩ | ⟨s, q⟩ | ⟨t, v⟩ | ⟨t, v, dt, q⟩ | ⟨s, dt⟩ | ⟨s, b⟩ | ⟨p, i, st⟩
  · simp only [Spec.liveOp, World.step]
    rw [h1, h2]
    rcases hep : w.epics[e]? with _ | ep
    · rfl
    · simp only
      split_ifs
      · unfold liveOut
        rw [← live_orKeep]
        congr 1
        rcases ht : Trade.openFromTick ep.lastTick e d q s with err | t
        · rfl
        · obtain ⟨-, g2, g3, -, -, g6⟩ := openFromTick_fresh ht
          refine live_providerOpen w ep.provider t ?_
          intro pr hpr hk
          obtain ⟨k1, k2⟩ := ho ep pr hep hpr hk
          exact ⟨by rw [g3]; exact k1, fun i hi x hx hxs hxc => k2 i hi x hx (hxs.trans g2) hxc _ g6⟩
      · rfl
  · simp only [Spec.liveOp, World.step]
    rw [live_closeTrade, live_orKeep]; rfl
  · simp only [Spec.liveOp, World.step]
    rw [h2]
    rcases w.strategies[s]? with _ | st
    · rfl
    · simp only
      rw [live_closeOpenedLoop, live_orKeep]; rfl
  · rfl
  · rfl
  · rfl
  · rfl
  · exact live_runThread w p i st

/-- What runs keep: valid providers of fixed classes, labelled trades. -/
structure Fit (ks : List ProviderKind) (P : Option ℕ → Dir → Prop) (w : World) : Prop where
  epics : EpicsOk w
  kinds : w.providers.map Provider.kind = ks
  lab : Labelled P w

section
variable {ks : List ProviderKind} {P : Option ℕ → Dir → Prop}

theorem fit_wsteps {w w' : World} (h : WSteps False w w') (hl : Labelled P w') (hw : Fit ks P w) : Fit ks P w' := by
  refine ⟨h.epicsOk hw.epics, ?_, hl⟩
  rw [← hw.kinds]
  refine WSteps.inv (I := fun u => u.providers.map Provider.kind = w.providers.map Provider.kind) ?_ h rfl
  intro a b ha hp
  cases hp with
  | prim hp => exact hp.shape.2.2.1.trans ha
  | log ev => exact ha
  | epics es _ => exact ha

theorem fit_step {w : World} {o : Op} (ho : OpFits P o) (hw : Fit ks P w) : Fit ks P (w.step o).1 :=
  fit_wsteps (step_steps hw.epics (fun v => v.elim)).lift (lab_step ho hw.lab) hw

theorem live_run {p p' : Prog} (h : Spec.LiveProg ks p p') : ∀ w : World, Fit ks P w → p.All (OpFits P) → Spec.Careful p w →
    p'.run (Spec.liveWorld w) = liveOut (p.run w) := by
  induction h with
  | done => intro w _ _ _; rfl
  | raise e => intro w _ _ _; rfl
  | act o k k' _ ih =>
    intro w hw hp hc
    cases hc with
    | act _ _ _ ho hk =>
      have hs := fit_step hp.1 hw
      simp only [Prog.run]
      have hst := live_step w o ho
      rw [hw.kinds] at hst
      rw [hst]
      exact ih _ _ hs.kinds _ hs (hp.2 _ _) hk

theorem live_updateOpenTrades (w : World) (p : ℕ) (x : Tick) :
    (Spec.liveWorld w).updateOpenTrades p x = Spec.liveWorld (w.updateOpenTrades p x) := by
  unfold World.updateOpenTrades
  rw [live_provider?]
  rcases w.providers[p]? with _ | pr
  · rfl
  · simp only [Option.map_some]
    have h1 : (Spec.liveWorld w).openedTrades (Spec.liveProvider pr) = w.openedTrades pr := rfl
    rw [h1]
    generalize w.openedTrades pr = l
    induction l generalizing w with
    | nil => rfl
    | cons i rest ih => exact ih { w with trades := w.trades.modify i (fun t => t.updateFromTick x) } rfl

theorem live_andThen (r : World × Option PyErr) (hr : Fit ks P r.1) (f f' : World → World × Option PyErr)
    (h : ∀ w, Fit ks P w → f' (Spec.liveWorld w) = liveOut (f w)) : andThen (liveOut r) f' = liveOut (andThen r f) := by
  rcases r with ⟨w, _ | e⟩
  · exact h w hr
  · rfl

theorem fit_andThen (r : World × Option PyErr) (hr : Fit ks P r.1) (f : World → World × Option PyErr)
    (h : ∀ w, Fit ks P w → Fit ks P (f w).1) : Fit ks P (andThen r f).1 := by
  rcases r with ⟨w, _ | e⟩
  · exact h w hr
  · exact hr

/-- Callbacks with brokers and with backtests. -/
structure Guard (ks : List ProviderKind) (P : Option ℕ → Dir → Prop) (env env' : Env) : Prop where
  live : Spec.LiveEnv ks env env'
  fits : ∀ s cb e w, (env s cb e w).All (OpFits P)
  careful : ∀ s cb e w, Fit ks P w → Spec.Careful (env s cb e w) w

variable {env env' : Env} (G : Guard ks P env env')
include G

theorem fit_call {w : World} (hw : Fit ks P w) (s : ℕ) (cb : Cb) (e : ℕ) : Fit ks P (w.call env s cb e).1 := by
  have h0 : Fit ks P { w with log := w.log ++ [.notify s e cb] } := ⟨hw.epics, hw.kinds, hw.lab⟩
  exact fit_wsteps (call_steps (fun v => v.elim) hw.epics s cb e) (lab_run _ (G.fits _ _ _ _) h0.lab) hw

theorem live_call {w : World} (hw : Fit ks P w) (s : ℕ) (cb : Cb) (e : ℕ) :
    (Spec.liveWorld w).call env' s cb e = liveOut (w.call env s cb e) := by
  have h0 : Fit ks P { w with log := w.log ++ [.notify s e cb] } := ⟨hw.epics, hw.kinds, hw.lab⟩
  exact live_run (G.live s cb e { w with log := w.log ++ [.notify s e cb] } hw.kinds) _ h0 (G.fits _ _ _ _) (G.careful _ _ _ _ h0)

theorem fit_callIf (b : Bool) {w : World} (hw : Fit ks P w) (s : ℕ) (cb : Cb) (e : ℕ) : Fit ks P (w.callIf env b s cb e).1 := by
  unfold World.callIf
  split_ifs
  · exact fit_call G hw s cb e
  · exact hw

theorem live_callIf (b : Bool) {w : World} (hw : Fit ks P w) (s : ℕ) (cb : Cb) (e : ℕ) :
    (Spec.liveWorld w).callIf env' b s cb e = liveOut (w.callIf env b s cb e) := by
  unfold World.callIf
  split_ifs
  · exact live_call G hw s cb e
  · rfl

theorem fit_notifyAll {w : World} (hw : Fit ks P w) (e s : ℕ) (b : Bool) : Fit ks P (w.notifyAll env e s b).1 := by
  unfold World.notifyAll
  exact fit_andThen _ (fit_callIf G _ hw _ _ _) _ fun v hv => fit_andThen _ (fit_callIf G _ hv _ _ _) _ fun v hv =>
    fit_andThen _ (fit_callIf G _ hv _ _ _) _ fun v hv => fit_call G hv _ _ _

theorem live_notifyAll {w : World} (hw : Fit ks P w) (e s : ℕ) (b : Bool) :
    (Spec.liveWorld w).notifyAll env' e s b = liveOut (w.notifyAll env e s b) := by
  have hm : ∀ v : World, (Spec.liveWorld v).marketOpen e = v.marketOpen e := fun _ => rfl
  unfold World.notifyAll
  rw [hm, live_callIf G _ hw]
  refine live_andThen _ (fit_callIf G _ hw _ _ _) _ _ fun v hv => ?_
  rw [hm, live_callIf G _ hv]
  refine live_andThen _ (fit_callIf G _ hv _ _ _) _ _ fun v hv => ?_
  rw [hm, live_callIf G _ hv]
  exact live_andThen _ (fit_callIf G _ hv _ _ _) _ _ fun v hv => live_call G hv s _ e

theorem live_execStrategy {w : World} (hw : Fit ks P w) (e s : ℕ) (b : Bool) (dt : DT) :
    (Spec.liveWorld w).execStrategy env' e s b dt = liveOut (w.execStrategy env e s b dt) ∧
      Fit ks P (w.execStrategy env e s b dt).1 := by
  unfold World.execStrategy
  have h2 : (Spec.liveWorld w).strategies = w.strategies := rfl
  rw [h2]
  rcases w.strategies[s]? with _ | st
  · exact ⟨rfl, hw⟩
  · simp only
    have h0 : Fit ks P { w with strategies := w.strategies.set s (st.isActive dt).2 } := ⟨hw.epics, hw.kinds, hw.lab⟩
    split_ifs
    · exact ⟨live_notifyAll G h0 e s b, fit_notifyAll G h0 e s b⟩
    · exact ⟨rfl, h0⟩

theorem live_execStrategies (e : ℕ) (b : Bool) (dt : DT) (l : List ℕ) : ∀ {w : World}, Fit ks P w →
    execStrategies env' e b dt (Spec.liveWorld w) l = liveOut (execStrategies env e b dt w l) ∧
      Fit ks P (execStrategies env e b dt w l).1 := by
  induction l with
  | nil => intro w hw; exact ⟨rfl, hw⟩
  | cons s rest ih =>
    intro w hw
    obtain ⟨h1, h2⟩ := live_execStrategy G hw e s b dt
    unfold execStrategies
    rw [h1]
    exact ⟨live_andThen _ h2 _ _ fun v hv => (ih hv).1, fit_andThen _ h2 _ fun v hv => (ih hv).2⟩

theorem live_onNewTick {w : World} (hw : Fit ks P w) (e : ℕ) (x : Tick) :
    (Spec.liveWorld w).onNewTick env' e x = liveOut (w.onNewTick env e x) ∧ Fit ks P (w.onNewTick env e x).1 := by
  have hst := onNewTick_steps (V := False) (env := env) (fun v => v.elim) w hw.epics e x
  have h1 : (Spec.liveWorld w).epics = w.epics := rfl
  have h2 : (Spec.liveWorld w).log = w.log := rfl
  unfold World.onNewTick at hst ⊢
  rw [h1, h2]
  rcases hep : w.epics[e]? with _ | ep
  · exact ⟨rfl, hw⟩
  · rw [hep] at hst
    simp only at hst ⊢
    split_ifs at hst ⊢
    · exact ⟨rfl, hw⟩
    · rcases he : (ep.accept { x with dt := x.dt.to ep.zone }).2 with _ | err
      · simp only
        have h0 : Fit ks P { w with
            epics := w.epics.set e (ep.accept { x with dt := x.dt.to ep.zone }).1
            log := w.log ++ [.accepted e { x with dt := x.dt.to ep.zone }] } := by
          refine fit_wsteps (.head (.epics (w.epics.set e (ep.accept { x with dt := x.dt.to ep.zone }).1)
            (map_provider_set _ _ ep _ hep rfl)) (.single (.log _))) ?_ hw
          exact hw.lab
        have h3 := fit_wsteps (updateOpenTrades_steps _ ep.provider { x with dt := x.dt.to ep.zone }).lift
          (lab_updateOpenTrades _ _ h0.lab) h0
        have h4 := live_execStrategies G e ep.marketOpen (x.dt.to ep.zone) (ep.strategies.map Prod.snd) h3
        rw [← live_updateOpenTrades] at h4
        exact h4
      · rw [he] at hst
        exact ⟨rfl, fit_wsteps hst hw.lab hw⟩

theorem live_exec {w : World} (hw : Fit ks P w) (c : Cmd) (hc : ∀ o, c = .op o → OpFits P o ∧ Spec.Plain w o) :
    (Spec.liveWorld w).exec env' (Spec.liveCmd ks c) = liveOut (w.exec env c) ∧ Fit ks P (w.exec env c).1 := by
  have hst := exec_steps (V := False) (env := env) (fun v => v.elim) w hw.epics c (fun v => v.elim)
  rcases c with ⟨e, t⟩ | o | ⟨e, ref, fs⟩ | ⟨e, s⟩ | ⟨e, ref, ind⟩
  · exact live_onNewTick G hw e t
  · obtain ⟨h1, h2⟩ := hc o rfl
    have h3 := live_step w o h2
    rw [hw.kinds] at h3
    exact ⟨h3, fit_step h1 hw⟩
  · simp only [Spec.liveCmd, World.exec] at hst ⊢
    unfold World.addFrameSet at hst ⊢
    have h1 : (Spec.liveWorld w).epics = w.epics := rfl
    rw [h1]
    rcases hep : w.epics[e]? with _ | ep
    · exact ⟨rfl, hw⟩
    · rw [hep] at hst
      simp only at hst ⊢
      rcases ha : ep.addFrameSet ref fs with err | ep'
      · exact ⟨rfl, hw⟩
      · rw [ha] at hst
        exact ⟨rfl, fit_wsteps hst hw.lab hw⟩
  · simp only [Spec.liveCmd, World.exec] at hst ⊢
    unfold World.addStrategy at hst ⊢
    have h1 : (Spec.liveWorld w).epics = w.epics := rfl
    have h2 : (Spec.liveWorld w).strategies = w.strategies := rfl
    rw [h1, h2]
    rcases hep : w.epics[e]? with _ | ep <;> rcases hs : w.strategies[s]? with _ | st
    · exact ⟨rfl, hw⟩
    · exact ⟨rfl, hw⟩
    · exact ⟨rfl, hw⟩
    · rw [hep, hs] at hst
      simp only at hst ⊢
      rcases ha : ep.strategies.get? st.ref with _ | y
      · rw [ha] at hst
        exact ⟨rfl, fit_wsteps hst hw.lab hw⟩
      · exact ⟨rfl, hw⟩
  · simp only [Spec.liveCmd, World.exec] at hst ⊢
    unfold World.addIndicator at hst ⊢
    have h1 : (Spec.liveWorld w).epics = w.epics := rfl
    rw [h1]
    rcases hep : w.epics[e]? with _ | ep
    · exact ⟨rfl, hw⟩
    · rw [hep] at hst
      simp only at hst ⊢
      rcases ha : ep.frameSets.get? ref with _ | fs
      · exact ⟨rfl, hw⟩
      · rw [ha] at hst
        exact ⟨rfl, fit_wsteps hst hw.lab hw⟩

theorem live_runCmds (l : List Cmd) : ∀ {w : World}, Fit ks P w →
    (∀ l₁ o l₂, l = l₁ ++ .op o :: l₂ → OpFits P o ∧ (Labelled P (w.runCmds env l₁) → Spec.Plain (w.runCmds env l₁) o)) →
    (Spec.liveWorld w).runCmds env' (l.map (Spec.liveCmd ks)) = Spec.liveWorld (w.runCmds env l) ∧ Fit ks P (w.runCmds env l) := by
  induction l with
  | nil => intro w hw _; exact ⟨rfl, hw⟩
  | cons c l ih =>
    intro w hw hl
    obtain ⟨h1, h2⟩ := live_exec G hw c (by
      intro o ho
      obtain ⟨a, b⟩ := hl [] o l (by rw [ho]; rfl)
      exact ⟨a, b hw.lab⟩)
    have h3 := ih h2 (fun l₁ o l₂ e => hl (c :: l₁) o l₂ (by rw [e]; rfl))
    refine ⟨?_, h3.2⟩
    change World.runCmds env' ((Spec.liveWorld w).exec env' (Spec.liveCmd ks c)).1 (l.map (Spec.liveCmd ks)) = _
    rw [h1]
    exact h3.1

theorem live_raises (l : List Cmd) {w : World} (hw : Fit ks P w)
    (hl : ∀ l₁ o l₂, l = l₁ ++ .op o :: l₂ → OpFits P o ∧ (Labelled P (w.runCmds env l₁) → Spec.Plain (w.runCmds env l₁) o))
    (l₁ : List Cmd) (c : Cmd) (l₂ : List Cmd) (e : l = l₁ ++ c :: l₂) :
    (((Spec.liveWorld w).runCmds env' (l₁.map (Spec.liveCmd ks))).exec env' (Spec.liveCmd ks c)).2 =
      ((w.runCmds env l₁).exec env c).2 := by
  obtain ⟨h1, h2⟩ := live_runCmds G l₁ hw (fun a o b h => hl a o (b ++ c :: l₂) (by rw [e, h]; simp))
  obtain ⟨h3, -⟩ := live_exec G h2 c (by
    intro o ho
    obtain ⟨a, b⟩ := hl l₁ o l₂ (by rw [e, ho])
    exact ⟨a, b h2.lab⟩)
  rw [h1, h3]
  rfl

end

theorem all_true (p : Prog) : p.All (OpFits (fun _ _ => True)) :=
  Prog.all_of_forall (fun o => by cases o <;> simp [OpFits]) p

theorem one_sided_fits {side : Option ℕ → Dir} {o : Op} (h : Spec.OneSided side o) : OpFits (fun s d => d = side s) o := by
  cases o with
  | openTrade e s d q => exact h.2
  | _ => trivial

theorem one_sided_plain {side : Option ℕ → Dir} {o : Op} (h : Spec.OneSided side o) {w : World}
    (hw : Labelled (fun s d => d = side s) w) : Spec.Plain w o := by
  cases o with
  | openTrade e s d q =>
    intro ep pr _ _ _
    refine ⟨h.1, fun i _ t ht hs _ x hx => ?_⟩
    rw [h.2 x hx, ← hs]
    exact hw t (List.mem_of_getElem? ht)
  | _ => trivial

theorem one_sided_careful {side : Option ℕ → Dir} (p : Prog) : ∀ {w : World}, p.All (Spec.OneSided side) →
    Labelled (fun s d => d = side s) w → Spec.Careful p w := by
  induction p with
  | done => intro w _ _; exact .done w
  | raise e => intro w _ _; exact .raise e w
  | act o k ih =>
    intro w h hw
    exact .act o k w (one_sided_plain h.1 hw) (ih _ _ (h.2 _ _) (lab_step (one_sided_fits h.1) hw))

theorem all_mono {A B : Op → Prop} (h : ∀ o, A o → B o) : ∀ p : Prog, p.All A → p.All B
  | .done, _ => trivial
  | .raise _, _ => trivial
  | .act o k, hp => ⟨h o hp.1, fun w e => all_mono h (k w e) (hp.2 w e)⟩

/-! ## C87 -/

/-- Spec: the full claim: with brokers that confirm, programs that do not look at the class of their providers do what they do in
backtests. -/
def Spec.C87 : Prop := ∀ (w : World) (env env' : Env) (l : List Cmd), w.Init →
  Spec.LiveEnv (w.providers.map Provider.kind) env env' →
  (Spec.liveWorld w).runCmds env' (l.map (Spec.liveCmd (w.providers.map Provider.kind))) = Spec.liveWorld (w.runCmds env l)

/-- C87, partial: the claim holds for programs that never open a trade against an open one of the same strategy (what the
backtest provider then does instead is `C30`) and open positive quantities: same frames, callbacks, trades, closes, statuses,
threads. -/
theorem C87_live_partial (w : World) (env env' : Env) (l : List Cmd) (hw : ∀ ep ∈ w.epics, ep.provider < w.providers.length)
    (henv : Spec.LiveEnv (w.providers.map Provider.kind) env env')
    (hc : ∀ s cb e v, v.providers.map Provider.kind = w.providers.map Provider.kind → Spec.Careful (env s cb e v) v)
    (hl : ∀ l₁ o l₂, l = l₁ ++ .op o :: l₂ → Spec.Plain (w.runCmds env l₁) o) :
    (Spec.liveWorld w).runCmds env' (l.map (Spec.liveCmd (w.providers.map Provider.kind))) = Spec.liveWorld (w.runCmds env l) :=
  (live_runCmds (P := fun _ _ => True) ⟨henv, fun _ _ _ _ => all_true _, fun s cb e v hv => hc s cb e v hv.kinds⟩ l
    ⟨hw, rfl, fun _ _ => trivial⟩ (fun l₁ o l₂ e => ⟨by cases o <;> simp [OpFits], fun _ => hl l₁ o l₂ e⟩)).1

/-- C87, partial: the same exceptions are raised. -/
theorem C87_exceptions_partial (w : World) (env env' : Env) (l : List Cmd) (hw : ∀ ep ∈ w.epics, ep.provider < w.providers.length)
    (henv : Spec.LiveEnv (w.providers.map Provider.kind) env env')
    (hc : ∀ s cb e v, v.providers.map Provider.kind = w.providers.map Provider.kind → Spec.Careful (env s cb e v) v)
    (hl : ∀ l₁ o l₂, l = l₁ ++ .op o :: l₂ → Spec.Plain (w.runCmds env l₁) o) (l₁ : List Cmd) (c : Cmd) (l₂ : List Cmd)
    (h : l = l₁ ++ c :: l₂) :
    (((Spec.liveWorld w).runCmds env' (l₁.map (Spec.liveCmd (w.providers.map Provider.kind)))).exec env'
      (Spec.liveCmd (w.providers.map Provider.kind) c)).2 = ((w.runCmds env l₁).exec env c).2 :=
  live_raises (P := fun _ _ => True) ⟨henv, fun _ _ _ _ => all_true _, fun s cb e v hv => hc s cb e v hv.kinds⟩ l
    ⟨hw, rfl, fun _ _ => trivial⟩ (fun l₁ o l₂ e => ⟨by cases o <;> simp [OpFits], fun _ => hl l₁ o l₂ e⟩) l₁ c l₂ h

/-- C87, partial: in particular for strategies that trade one direction each, with positive quantities. -/
theorem C87_one_sided_partial (w : World) (env env' : Env) (l : List Cmd) (hw : w.Init)
    (henv : Spec.LiveEnv (w.providers.map Provider.kind) env env') (side : Option ℕ → Dir)
    (hc : ∀ s cb e v, (env s cb e v).All (Spec.OneSided side)) (hl : ∀ c ∈ l, Spec.OneSidedCmd side c) :
    (Spec.liveWorld w).runCmds env' (l.map (Spec.liveCmd (w.providers.map Provider.kind))) = Spec.liveWorld (w.runCmds env l) := by
  refine (live_runCmds (P := fun s d => d = side s) ⟨henv, fun s cb e v => all_mono (fun o => one_sided_fits) _ (hc s cb e v),
    fun s cb e v hv => one_sided_careful _ (hc s cb e v) hv.lab⟩ l ⟨Init.epicsOk hw, rfl, ?_⟩ ?_).1
  · intro t ht; rw [hw.trades] at ht; cases ht
  · intro l₁ o l₂ e
    have := hl (.op o) (by rw [e]; simp)
    exact ⟨one_sided_fits this, one_sided_plain this⟩

end

namespace Demo

/-- A strategy that buys and sells in turn: without an open trade it opens one, otherwise it closes. -/
def flipper : Env := fun s cb e w =>
  if cb = .everyTickOpen then
    if w.trades.all (fun t => t.strategy != some s || t.closed) then
      .act (.openTrade e (some s) (some (if w.trades.length % 2 = 0 then .buy else .sell)) 2) (fun _ _ => .done)
    else .act (.closeOpened s none) (fun _ _ => .done)
  else .done

/-- Strategy 0 buys and strategy 1 sells at every tick. -/
def sided : Env := fun s cb e _ =>
  if cb = .everyTickOpen then .act (.openTrade e (some s) (some (if s = 0 then .buy else .sell)) 1) (fun _ _ => .done) else .done

/-- Five ticks, two strategies; the requests are carried out. -/
def tradingDay : List Cmd :=
  [.addStrategy 1 0, .addStrategy 1 1, .tick 1 (tk 480 10 12), .tick 1 (tk 481 11 13), .op (.thread 0 0 none), .tick 1 (tk 482 12 14),
    .tick 1 (tk 483 12 14), .op (.thread 0 1 none), .tick 1 (tk 484 9 11)]

end Demo

/-- C87, negation of the full claim: buying 1 and selling 1 closes the first trade in a backtest; with a broker there are two
open trades. -/
theorem C87_false : ¬ @Spec.C87 Arith.exact := by
  letI := Arith.exact
  intro h
  have h1 := h Demo.world Demo.quiet Demo.quiet [.tick 1 (Demo.tk 480 10 12), .op (.openTrade 1 (some 0) (some .buy) 1),
    .op (.openTrade 1 (some 0) (some .sell) 1)] Demo.world_init (fun _ _ _ _ _ => .done)
  have h2 := congrArg (fun w => w.trades.map Trade.closed) h1
  exact absurd h2 (by decide +kernel)

/-- C87, the other reason: a trade of quantity 0 is not opened in a backtest, but sent to a broker. -/
theorem C87_zero_false : ¬ @Spec.C87 Arith.exact := by
  letI := Arith.exact
  intro h
  have h1 := h Demo.world Demo.quiet Demo.quiet [.tick 1 (Demo.tk 480 10 12), .op (.openTrade 1 (some 0) (some .buy) 0)]
    Demo.world_init (fun _ _ _ _ _ => .done)
  have h2 := congrArg (fun w => w.providers.map Provider.trades) h1
  exact absurd h2 (by decide +kernel)

section examples

example [Arith] (ks : List ProviderKind) : Spec.LiveEnv ks Demo.flipper Demo.flipper := by
  intro s cb e w _
  unfold Demo.flipper
  have h : (Spec.liveWorld w).trades = w.trades := rfl
  rw [h]
  split_ifs
  · exact .act _ _ _ (fun _ _ _ => .done)
  · exact .act _ _ _ (fun _ _ _ => .done)
  · exact .act _ _ _ (fun _ _ _ => .done)
  · exact .done

example [Arith] (s : ℕ) (cb : Cb) (e : ℕ) (w : World) : Spec.Careful (Demo.flipper s cb e w) w := by
  unfold Demo.flipper
  split_ifs with h1 h2
  · refine .act _ _ _ ?_ (.done _)
    intro ep pr _ _ _
    refine ⟨by decide, fun i _ t ht hs hc => ?_⟩
    have := List.all_eq_true.mp h2 t (List.mem_of_getElem? ht)
    rw [hs, hc] at this
    simp at this
  · refine .act _ _ _ ?_ (.done _)
    intro ep pr _ _ _
    refine ⟨by decide, fun i _ t ht hs hc => ?_⟩
    have := List.all_eq_true.mp h2 t (List.mem_of_getElem? ht)
    rw [hs, hc] at this
    simp at this
  · exact .act _ _ _ trivial (.done _)
  · exact .done _

example : letI := Arith.exact
    (((Demo.world.runCmds Demo.flipper Demo.tradingDay).trades.map (fun t => (t.strategy, t.dir, t.closed))) =
      [(some 0, .buy, true), (some 1, .sell, true), (some 0, .buy, true), (some 1, .sell, true), (some 0, .buy, false), (some 1, .sell, false)]) ∧
    (((Spec.liveWorld Demo.world).runCmds Demo.flipper (Demo.tradingDay.map (Spec.liveCmd [.backtests]))).trades.map Trade.result =
      (Demo.world.runCmds Demo.flipper Demo.tradingDay).trades.map Trade.result) := by
  decide +kernel

example : (∀ s cb e v, (Demo.sided s cb e v).All (Spec.OneSided (fun s => if s = some 0 then .buy else .sell))) ∧
    (∀ c ∈ Demo.tradingDay, Spec.OneSidedCmd (fun s => if s = some 0 then .buy else .sell) c) := by
  constructor
  · intro s cb e v
    unfold Demo.sided
    split_ifs with h1 h2
    · exact ⟨⟨by decide, fun x hx => by simp only [Option.some.injEq] at hx; rw [← hx, h2]; rfl⟩, fun _ _ => trivial⟩
    · refine ⟨⟨by decide, fun x hx => ?_⟩, fun _ _ => trivial⟩
      simp only [Option.some.injEq] at hx
      rw [← hx]; exact (if_neg (by simpa using h2)).symm
    · trivial
  · intro c hc
    simp only [Demo.tradingDay, List.mem_cons, List.not_mem_nil, or_false] at hc
    rcases hc with rfl | rfl | rfl | rfl | rfl | rfl | rfl | rfl | rfl <;> trivial

end examples

end Estrade
