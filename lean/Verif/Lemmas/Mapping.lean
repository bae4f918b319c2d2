import Verif.Lemmas.Dicts
import Verif.Lemmas.WorldLog
import Verif.Lemmas.Fills
import Verif.Props.Scaling

/-!
# Maps of worlds that commute with every command

A `Spec.Mapping` says how ticks, datetimes, directions, prices, frame sets, epics and trades of one program correspond to those of
another one. `Lawful` lists what has to be shown about single objects; then whole runs correspond (`map_runCmds`).
-/

set_option linter.style.haveILetI false
set_option linter.unusedSectionVars false
set_option autoImplicit false

namespace Estrade

/-- Spec: how the objects of one program correspond to those of another one. -/
structure Spec.Mapping where
  tick : Tick → Tick
  dt : DT → DT
  dir : Dir → Dir
  price : ℚ → ℚ
  fset : FrameSet → FrameSet
  epic : Epic → Epic
  trade : Trade → Trade
  ind : Indicator → Indicator := id
  fsetRef : String → String := id
  stratRef : String → String := id
  epicRef : String → String := id

namespace Spec.Mapping
variable (F : Spec.Mapping)

/-- Spec: strategies differ in references and `paused_until` only. -/
def strategy (s : Strategy) : Strategy :=
  { s with
    ref := F.stratRef s.ref
    epics := s.epics.map (fun p => (F.epicRef p.1, p.2))
    pausedUntil := s.pausedUntil.map F.dt }

/-- Spec: corresponding history entries. -/
def event : Event → Event
  | .accepted e t => .accepted e (F.tick t)
  | .notify s e cb => .notify s e cb

/-- Spec: the corresponding world. -/
def world (w : World) : World :=
  { w with
    epics := w.epics.map F.epic
    strategies := w.strategies.map F.strategy
    trades := w.trades.map F.trade
    log := w.log.map F.event }

/-- Spec: the corresponding operation. -/
def op : Op → Op
  | .openTrade e s d q => .openTrade e s (d.map F.dir) q
  | .update t v => .update t (F.price v)
  | .close t v dt q => .close t (F.price v) (F.dt dt) q
  | .pause s d => .pause s (d.map F.dt)
  | o => o

/-- Spec: the corresponding command. -/
def cmd : Cmd → Cmd
  | .tick e t => .tick e (F.tick t)
  | .op o => .op (F.op o)
  | .addFrameSet e ref fs => .addFrameSet e (F.fsetRef ref) (F.fset fs)
  | .addStrategy e s => .addStrategy e s
  | .addIndicator e ref ind => .addIndicator e (F.fsetRef ref) (F.ind ind)

end Spec.Mapping

/-- Restrictions under which objects correspond. -/
structure Allowed where
  epic : Epic → Prop
  last : Tick → Prop
  tick : Tick → Prop
  fset : FrameSet → Prop
  ind : Indicator → Prop

/-- The restriction on commands. -/
def Allowed.cmd (A : Allowed) : Cmd → Prop
  | .tick _ t => A.tick t
  | .addFrameSet _ _ fs => A.fset fs
  | .addIndicator _ _ ind => A.ind ind
  | _ => True

/-- The restriction on worlds. -/
def Allowed.world (A : Allowed) (w : World) : Prop := ∀ ep ∈ w.epics, A.epic ep ∧ A.last ep.lastTick

/-- Spec: user code that takes corresponding decisions in corresponding worlds (worlds within the restrictions). -/
inductive Spec.Mapping.RelProg (F : Spec.Mapping) (A : Allowed) : Prog → Prog → Prop
  | done : RelProg F A .done .done
  | raise (e : PyErr) : RelProg F A (.raise e) (.raise e)
  | act (o : Op) (f f' : World → Option PyErr → Prog) (h : ∀ w r, A.world w → RelProg F A (f w r) (f' (F.world w) r)) :
      RelProg F A (.act o f) (.act (F.op o) f')

/-- Spec: callbacks that take corresponding decisions in corresponding worlds (worlds within the restrictions). -/
def Spec.Mapping.RelEnv (F : Spec.Mapping) (A : Allowed) (env env' : Env) : Prop :=
  ∀ s cb e w, A.world w → F.RelProg A (env s cb e w) (env' s cb e (F.world w))

section
variable [Arith]

/-- What has to be shown about single objects. -/
structure Lawful (F : Spec.Mapping) (A : Allowed) : Prop where
  tick_dt : ∀ x, (F.tick x).dt = F.dt x.dt
  dt_lt : ∀ a b, (F.dt a).lt (F.dt b) = a.lt b
  dir_opposite : ∀ d, F.dir d.opposite = (F.dir d).opposite
  dir_inj : ∀ d d', F.dir d = F.dir d' → d = d'
  trade_epic : ∀ t, (F.trade t).epic = t.epic
  trade_strategy : ∀ t, (F.trade t).strategy = t.strategy
  trade_dir : ∀ t, (F.trade t).dir = F.dir t.dir
  trade_openQty : ∀ t, (F.trade t).openQty = t.openQty
  trade_openedQty : ∀ t, (F.trade t).openedQty = t.openedQty
  trade_closes : ∀ t, (F.trade t).closes.length = t.closes.length
  trade_setQty : ∀ t q, F.trade { t with openQty := q } = { F.trade t with openQty := q }
  trade_setStatus : ∀ t st, F.trade { t with status := st } = { F.trade t with status := st }
  trade_setClose : ∀ t k st, F.trade { t with closes := t.closes.modify k (fun c => { c with status := st }) } =
    { F.trade t with closes := (F.trade t).closes.modify k (fun c => { c with status := st }) }
  trade_update : ∀ t v, (F.trade t).update (F.price v) = F.trade (t.update v)
  trade_updateFromTick : ∀ t x, (F.trade t).updateFromTick (F.tick x) = F.trade (t.updateFromTick x)
  trade_close : ∀ t v dt q, (F.trade t).close (F.price v) (F.dt dt) q = F.trade (t.close v dt q)
  trade_closeFromTick : ∀ t x q, (F.trade t).closeFromTick (F.tick x) q = F.trade (t.closeFromTick x q)
  trade_open : ∀ x, A.last x → ∀ e d q s, Trade.openFromTick (F.tick x) e (d.map F.dir) q s =
    (Trade.openFromTick x e d q s).map F.trade
  epic_lastTick : ∀ ep, (F.epic ep).lastTick = F.tick ep.lastTick
  epic_provider : ∀ ep, (F.epic ep).provider = ep.provider
  epic_marketOpen : ∀ ep, (F.epic ep).marketOpen = ep.marketOpen
  fsetRef_inj : Function.Injective F.fsetRef
  stratRef_inj : Function.Injective F.stratRef
  epicRef_inj : Function.Injective F.epicRef
  epic_strategies : ∀ ep, (F.epic ep).strategies = ep.strategies.map (fun p => (F.stratRef p.1, p.2))
  epic_ref : ∀ ep, (F.epic ep).ref = F.epicRef ep.ref
  epic_frameSets : ∀ ep, (F.epic ep).frameSets = ep.frameSets.map (fun p => (F.fsetRef p.1, F.fset p.2))
  epic_setStrategies : ∀ ep d, F.epic { ep with strategies := d } =
    { F.epic ep with strategies := d.map (fun p => (F.stratRef p.1, p.2)) }
  epic_setFrameSets : ∀ ep d, F.epic { ep with frameSets := d } =
    { F.epic ep with frameSets := d.map (fun p => (F.fsetRef p.1, F.fset p.2)) }
  epic_convert : ∀ ep x, A.epic ep → A.tick x →
    (F.dt x.dt).to (F.epic ep).zone = F.dt (x.dt.to ep.zone)
  tick_setDt : ∀ x d, F.tick { x with dt := d } = { F.tick x with dt := F.dt d }
  epic_accept : ∀ ep x, A.epic ep → A.tick x →
    (F.epic ep).accept (F.tick { x with dt := x.dt.to ep.zone }) =
      (F.epic (ep.accept { x with dt := x.dt.to ep.zone }).1, (ep.accept { x with dt := x.dt.to ep.zone }).2)
  fset_addIndicator : ∀ fs ind, A.ind ind → (F.fset fs).addIndicator (F.ind ind) =
    (F.fset (fs.addIndicator ind).1, (fs.addIndicator ind).2)
  last_tick : ∀ x d, A.tick x → A.last { x with dt := d }
  allowed_last : ∀ ep x, A.epic ep → A.epic { ep with lastTick := x }
  epic_setLast : ∀ ep x, F.epic { ep with lastTick := x } = { F.epic ep with lastTick := F.tick x }
  allowed_strategies : ∀ ep d, A.epic ep → A.epic { ep with strategies := d }
  allowed_accept : ∀ ep x, A.epic ep → A.tick x → A.epic (ep.accept { x with dt := x.dt.to ep.zone }).1
  allowed_frameSet : ∀ ep ref fs, A.epic ep → A.fset fs → ep.frameSets.get? ref = none →
    A.epic { ep with frameSets := ep.frameSets.set ref fs }
  allowed_indicator : ∀ ep ref fs ind, A.epic ep → A.ind ind → ep.frameSets.get? ref = some fs →
    A.epic { ep with frameSets := ep.frameSets.set ref (fs.addIndicator ind).1 }

section
variable {F : Spec.Mapping} {A : Allowed} (L : Lawful F A)

theorem map_trade? (w : World) (i : ℕ) : (F.world w).trades[i]? = (w.trades[i]?).map F.trade := List.getElem?_map ..

theorem map_epic? (w : World) (i : ℕ) : (F.world w).epics[i]? = (w.epics[i]?).map F.epic := List.getElem?_map ..

theorem map_strategy? (w : World) (i : ℕ) : (F.world w).strategies[i]? = (w.strategies[i]?).map F.strategy :=
  List.getElem?_map ..

theorem map_modify (w : World) (i : ℕ) (g g' : Trade → Trade) (h : ∀ t, g' (F.trade t) = F.trade (g t)) :
    { F.world w with trades := (F.world w).trades.modify i g' } =
      F.world { w with trades := w.trades.modify i g } := by
  unfold Spec.Mapping.world
  simp only
  rw [map_modify_comm _ g g' h]

theorem map_modStrategy (w : World) (s : ℕ) (g g' : Strategy → Strategy)
    (h : ∀ st, g' (F.strategy st) = F.strategy (g st)) :
    (F.world w).modStrategy s g' = F.world (w.modStrategy s g) := by
  unfold Spec.Mapping.world World.modStrategy
  simp only
  rw [map_modify_comm _ g g' h]

include L

theorem map_closed (t : Trade) : (F.trade t).closed = t.closed := by
  unfold Trade.closed
  rw [L.trade_openedQty]

theorem map_openedTrades (w : World) (p : Provider) : (F.world w).openedTrades p = w.openedTrades p := by
  unfold World.openedTrades
  refine List.filter_congr fun i _ => ?_
  rw [map_trade?]
  rcases w.trades[i]? with _ | t
  · rfl
  · simp only [Option.map_some]
    rw [map_closed L]

theorem map_closeOn (w : World) (p i : ℕ) (q : Option ℤ) :
    (F.world w).closeOn p i q = (w.closeOn p i q).map F.world := by
  unfold World.closeOn
  rw [map_trade?]
  rcases w.trades[i]? with _ | t
  · rfl
  · simp only [Option.map_some]
    rw [L.trade_epic, map_epic?]
    rcases w.epics[t.epic]? with _ | e
    · rfl
    · simp only [Except.map, Option.map_some]
      rw [L.epic_lastTick, L.trade_closeFromTick, L.trade_closes]
      unfold World.setTrade World.modProvider Spec.Mapping.world
      simp

theorem map_netLoop (p : ℕ) (l : List ℕ) : ∀ (w : World) (new : Trade),
    netLoop p (F.world w) (F.trade new) l =
      (netLoop p w new l).map (fun r => (F.world r.1, F.trade r.2)) := by
  induction l with
  | nil => intro w new; rfl
  | cons i rest ih =>
    intro w new
    unfold netLoop
    rw [map_trade?]
    rcases w.trades[i]? with _ | t
    · rfl
    · simp only [Option.map_some]
      have h1 : ((F.trade t).dir = (F.trade new).dir.opposite) = (t.dir = new.dir.opposite) := by
        rw [L.trade_dir, L.trade_dir, ← L.dir_opposite]
        exact propext ⟨L.dir_inj _ _, fun h => by rw [h]⟩
      have h2 : ((F.trade t).strategy ≠ (F.trade new).strategy) = (t.strategy ≠ new.strategy) := by
        rw [L.trade_strategy, L.trade_strategy]
      have h3 : min (F.trade t).openedQty (F.trade new).openQty = min t.openedQty new.openQty := by
        rw [L.trade_openedQty, L.trade_openQty]
      simp only [h1, h2, h3]
      split_ifs
      · exact ih w new
      · rw [map_closeOn L, L.trade_openQty]
        rcases w.closeOn p i (some (min t.openedQty new.openQty)) with err | w'
        · rfl
        · have := ih w' { new with openQty := new.openQty - min t.openedQty new.openQty }
          rw [L.trade_setQty] at this
          exact this
      · exact ih w new

omit L in
theorem map_register (w : World) (p i : ℕ) (s : Option ℕ) :
    (F.world w).register p i s = F.world (w.register p i s) := by
  unfold World.register
  rcases s with _ | s
  · rfl
  · simp only
    have h := map_modStrategy (F := F) (w.modProvider p (fun pr => { pr with trades := pr.trades ++ [i] })) s
      (fun st => { st with trades := st.trades ++ [i] }) (fun st => { st with trades := st.trades ++ [i] }) (fun _ => rfl)
    exact congrArg (fun v => World.modProvider v p (fun pr => pr.spawn (.opening i))) h

theorem map_providerOpen (w : World) (p : ℕ) (new : Trade) :
    (F.world w).providerOpen p (F.trade new) = (w.providerOpen p new).map F.world := by
  unfold World.providerOpen
  have hp : (F.world w).providers = w.providers := rfl
  rw [hp]
  rcases w.providers[p]? with _ | pr
  · rfl
  · simp only
    have happ : ∀ (v : World) (t : Trade), ({ F.world v with
        trades := (F.world v).trades ++ [F.trade t] } : World) =
        F.world { v with trades := v.trades ++ [t] } := by
      intro v t
      unfold Spec.Mapping.world
      simp
    have hlen : ∀ v : World, (F.world v).trades.length = v.trades.length := by
      intro v
      unfold Spec.Mapping.world
      simp
    rcases pr.kind
    · simp only
      rw [map_openedTrades L, map_netLoop L]
      rcases netLoop p w new (w.openedTrades pr) with err | r
      · rfl
      · simp only [Except.map, bind, Except.bind]
        rw [happ, hlen, L.trade_strategy, L.trade_openQty]
        split_ifs
        · rfl
        · rw [map_register]
    · simp only [Except.map]
      refine congrArg Except.ok ?_
      rw [← map_register, ← happ, hlen, L.trade_strategy]
      rfl

theorem map_closeTrade (w : World) (e t : ℕ) (q : Option ℤ) :
    (F.world w).closeTrade e t q = (w.closeTrade e t q).map F.world := by
  unfold World.closeTrade
  rw [map_epic?]
  rcases w.epics[e]? with _ | ep
  · rfl
  · simp only [Option.map_some]
    rw [L.epic_provider]
    exact map_closeOn L w _ _ _

theorem map_closeOpenedLoop (q : Option ℤ) (l : List ℕ) : ∀ w : World,
    closeOpenedLoop q (F.world w) l = (closeOpenedLoop q w l).map F.world := by
  induction l with
  | nil => intro w; rfl
  | cons i rest ih =>
    intro w
    unfold closeOpenedLoop
    rw [map_trade?]
    rcases w.trades[i]? with _ | t
    · rfl
    · simp only [Option.map_some]
      rw [map_closed L, L.trade_epic, map_closeTrade L]
      split_ifs
      · exact ih w
      · rcases w.closeTrade t.epic i q with err | w'
        · rfl
        · exact ih w'

omit L in
theorem map_orKeep (w : World) (r : Except PyErr World) :
    orKeep (F.world w) (r.map F.world) = (F.world (orKeep w r).1, (orKeep w r).2) := by
  rcases r with e | w' <;> rfl

theorem map_setStatus (w : World) (tg : Target) (st : Status) :
    (F.world w).setStatus tg st = F.world (w.setStatus tg st) := by
  unfold World.setStatus
  rcases tg with i | ⟨i, j⟩
  · exact map_modify w i _ _ (fun t => (L.trade_setStatus t st).symm)
  · exact map_modify w i _ _ (fun t => (L.trade_setClose t j st).symm)

theorem map_runThread (w : World) (p i : ℕ) (st : Option Status) :
    (F.world w).runThread p i st = (F.world (w.runThread p i st).1, (w.runThread p i st).2) := by
  unfold World.runThread
  have hp : (F.world w).providers = w.providers := rfl
  rw [hp]
  rcases w.providers[p]? with _ | pr
  · rfl
  · simp only
    rcases pr.threads[i]? with _ | th
    · rfl
    · simp only
      split_ifs
      · rcases pr.kind
        · simp only
          rw [← map_setStatus L]
          rfl
        · rcases st with _ | st
          · rfl
          · simp only
            rw [← map_setStatus L]
            rfl
      · rfl

/-- The outcome of an operation in the other program. -/
def Spec.Mapping.out (F : Spec.Mapping) (r : World × Option PyErr) : World × Option PyErr := (F.world r.1, r.2)

theorem map_step (w : World) (hw : A.world w) (o : Op) :
    (F.world w).step (F.op o) = F.out (w.step o) := by
  rcases o with ⟨e, s, d, q⟩ | ⟨e, t, q⟩ | ⟨s, q⟩ | ⟨t, v⟩ | ⟨t, v, dt, q⟩ | ⟨s, dt⟩ | ⟨s, b⟩ | ⟨p, i, st⟩
  · simp only [Spec.Mapping.op, World.step]
    have hl : (F.world w).strategies.length = w.strategies.length := by
      unfold Spec.Mapping.world; simp
    rw [map_epic?, hl]
    rcases hep : w.epics[e]? with _ | ep
    · rfl
    · simp only [Option.map_some]
      split_ifs
      · rw [L.epic_lastTick, L.epic_provider, L.trade_open _ (hw ep (List.mem_of_getElem? hep)).2]
        unfold Spec.Mapping.out
        rw [← map_orKeep]
        congr 1
        rcases Trade.openFromTick ep.lastTick e d q s with err | t
        · rfl
        · exact map_providerOpen L w ep.provider t
      · rfl
  · simp only [Spec.Mapping.op, World.step]
    rw [map_closeTrade L, map_orKeep]
    rfl
  · simp only [Spec.Mapping.op, World.step]
    rw [map_strategy?]
    rcases w.strategies[s]? with _ | st
    · rfl
    · simp only [Option.map_some]
      have ht : (F.strategy st).trades = st.trades := rfl
      rw [ht, map_closeOpenedLoop L, map_orKeep]
      rfl
  · simp only [Spec.Mapping.op, World.step, Spec.Mapping.out]
    rw [map_modify w t (fun x => x.update v) _ (fun x => L.trade_update x v)]
  · simp only [Spec.Mapping.op, World.step, Spec.Mapping.out]
    rw [map_modify w t (fun x => x.close v dt q) _ (fun x => L.trade_close x v dt q)]
  · simp only [Spec.Mapping.op, World.step, Spec.Mapping.out]
    rw [map_modStrategy w s (fun st => { st with pausedUntil := dt }) _ (fun _ => rfl)]
  · simp only [Spec.Mapping.op, World.step, Spec.Mapping.out]
    rw [map_modStrategy w s (fun st => { st with stopped := b }) _ (fun _ => rfl)]
  · exact map_runThread L w p i st

omit L in
theorem allowed_of_epics {w w' : World} (h : w'.epics = w.epics) (hw : A.world w) : A.world w' := by
  unfold Allowed.world
  rw [h]
  exact hw

theorem map_run {p p' : Prog} (h : F.RelProg A p p') : ∀ w : World, A.world w →
    p'.run (F.world w) = F.out (p.run w) := by
  induction h with
  | done => intro w _; rfl
  | raise e => intro w _; rfl
  | act o f f' _ ih =>
    intro w hw
    simp only [Prog.run]
    rw [map_step L w hw]
    have hs := allowed_of_epics (step_epics w o).1 hw
    exact ih _ _ hs _ hs

theorem map_updateOpenTrades (w : World) (p : ℕ) (x : Tick) :
    (F.world w).updateOpenTrades p (F.tick x) = F.world (w.updateOpenTrades p x) := by
  unfold World.updateOpenTrades
  have hp : (F.world w).providers = w.providers := rfl
  simp only [hp]
  rcases w.providers[p]? with _ | pr
  · rfl
  · simp only
    rw [map_openedTrades L]
    generalize w.openedTrades pr = l
    induction l generalizing w with
    | nil => rfl
    | cons i rest ih =>
      simp only [List.foldl_cons]
      rw [map_modify w i (fun t => t.updateFromTick x) _ (fun t => L.trade_updateFromTick t x)]
      exact ih _ rfl

omit L in
theorem map_andThen (r : World × Option PyErr) (hr : A.world r.1) (f f' : World → World × Option PyErr)
    (h : ∀ w, A.world w → f' (F.world w) = F.out (f w)) :
    andThen (F.out r) f' = F.out (andThen r f) := by
  rcases r with ⟨w, _ | e⟩
  · exact h w hr
  · rfl

section
variable {env env' : Env} (henv : F.RelEnv A env env')
include henv

theorem map_call (w : World) (hw : A.world w) (s : ℕ) (cb : Cb) (e : ℕ) :
    (F.world w).call env' s cb e = F.out (w.call env s cb e) := by
  have h := map_run L (henv s cb e { w with log := w.log ++ [.notify s e cb] } hw)
    { w with log := w.log ++ [.notify s e cb] } hw
  have hl : F.world { w with log := w.log ++ [.notify s e cb] } =
      { F.world w with log := (F.world w).log ++ [.notify s e cb] } := by
    unfold Spec.Mapping.world
    simp [Spec.Mapping.event]
  rw [hl] at h
  exact h

theorem map_callIf (b : Bool) (w : World) (hw : A.world w) (s : ℕ) (cb : Cb) (e : ℕ) :
    (F.world w).callIf env' b s cb e = F.out (w.callIf env b s cb e) := by
  unfold World.callIf
  split_ifs
  · exact map_call L henv w hw s cb e
  · rfl

theorem map_notifyAll (w : World) (hw : A.world w) (e s : ℕ) (b : Bool) :
    (F.world w).notifyAll env' e s b = F.out (w.notifyAll env e s b) := by
  have hm : ∀ v : World, (F.world v).marketOpen e = v.marketOpen e := by
    intro v
    unfold World.marketOpen
    rw [map_epic?]
    rcases v.epics[e]? with _ | ep
    · rfl
    · exact L.epic_marketOpen ep
  have hq : ∀ (v : World) (b : Bool) (cb : Cb), A.world v → A.world (v.callIf env b s cb e).1 :=
    fun v b cb hv => allowed_of_epics (callIf_epics env b v s cb e).1 hv
  unfold World.notifyAll
  rw [hm, map_callIf L henv _ w hw]
  refine map_andThen _ (hq _ _ _ hw) _ _ fun v hv => ?_
  rw [hm, map_callIf L henv _ v hv]
  refine map_andThen _ (hq _ _ _ hv) _ _ fun v hv => ?_
  rw [hm, map_callIf L henv _ v hv]
  exact map_andThen _ (hq _ _ _ hv) _ _ fun v hv => map_call L henv v hv s _ e

omit henv in
theorem map_isActive (st : Strategy) (d : DT) :
    (F.strategy st).isActive (F.dt d) = ((st.isActive d).1, F.strategy (st.isActive d).2) := by
  unfold Strategy.isActive
  have h1 : (F.strategy st).stopped = st.stopped := rfl
  have h2 : (F.strategy st).pausedUntil = st.pausedUntil.map F.dt := rfl
  rw [h1, h2]
  split_ifs
  · rfl
  · rcases hp : st.pausedUntil with _ | p
    · rfl
    · simp only [Option.map_some]
      rw [L.dt_lt]
      split_ifs <;> rfl

theorem map_execStrategies (e : ℕ) (b : Bool) (dt : DT) (l : List ℕ) : ∀ w : World, A.world w →
    execStrategies env' e b (F.dt dt) (F.world w) l = F.out (execStrategies env e b dt w l) := by
  induction l with
  | nil => intro w _; rfl
  | cons s rest ih =>
    intro w hw
    have h : (F.world w).execStrategy env' e s b (F.dt dt) = F.out (w.execStrategy env e s b dt) := by
      unfold World.execStrategy
      rw [map_strategy?]
      rcases w.strategies[s]? with _ | st
      · rfl
      · simp only [Option.map_some]
        rw [map_isActive L]
        have hset : ({ F.world w with strategies := (F.world w).strategies.set s (F.strategy (st.isActive dt).2) } : World) =
            F.world { w with strategies := w.strategies.set s (st.isActive dt).2 } := by
          unfold Spec.Mapping.world
          simp [List.map_set]
        simp only
        rw [hset]
        split_ifs
        · exact map_notifyAll L henv { w with strategies := w.strategies.set s (st.isActive dt).2 } hw e s b
        · rfl
    have hq : A.world (w.execStrategy env e s b dt).1 := by
      have h1 := (execStrategies_epics env e b dt [s] w).1
      refine allowed_of_epics (w := w) ?_ hw
      rw [← h1]
      simp only [execStrategies]
      rcases w.execStrategy env e s b dt with ⟨v, _ | err⟩ <;> rfl
    unfold execStrategies
    rw [h]
    exact map_andThen _ hq _ _ ih

omit henv in
theorem map_addEpic (ref : String) (e : ℕ) (st : Strategy) :
    ({ F.strategy st with epics := (F.strategy st).epics.set (F.epicRef ref) e } : Strategy) =
      F.strategy { st with epics := st.epics.set ref e } := by
  have h := Dict.set_rename L.epicRef_inj (id : ℕ → ℕ) st.epics ref e
  exact congrArg (fun x => ({ F.strategy st with epics := x } : Strategy)) h

omit henv in
theorem map_strategyIds (ep : Epic) : (F.epic ep).strategies.map Prod.snd = ep.strategies.map Prod.snd := by
  rw [L.epic_strategies, List.map_map]
  rfl

theorem map_onNewTick (w : World) (hw : A.world w) (e : ℕ) (x : Tick) (hx : A.tick x) :
    (F.world w).onNewTick env' e (F.tick x) = F.out (w.onNewTick env e x) := by
  unfold World.onNewTick
  rw [map_epic?]
  rcases hep : w.epics[e]? with _ | ep
  · rfl
  · simp only [Option.map_some]
    have ha := (hw ep (List.mem_of_getElem? hep)).1
    have hdt : (F.tick x).dt.to (F.epic ep).zone = F.dt (x.dt.to ep.zone) := by
      rw [L.tick_dt, L.epic_convert ep x ha hx]
    have ht : ({ F.tick x with dt := F.dt (x.dt.to ep.zone) } : Tick) = F.tick { x with dt := x.dt.to ep.zone } :=
      (L.tick_setDt x _).symm
    have hW : ∀ r : Epic, ({ F.world w with
        epics := (F.world w).epics.set e (F.epic r)
        log := (F.world w).log ++ [.accepted e (F.tick { x with dt := x.dt.to ep.zone })] } : World) =
        F.world { w with
          epics := w.epics.set e r
          log := w.log ++ [.accepted e { x with dt := x.dt.to ep.zone }] } := by
      intro r
      unfold Spec.Mapping.world
      simp [Spec.Mapping.event, List.map_set]
    have hl : (F.epic ep).lastTick.dt = F.dt ep.lastTick.dt := by rw [L.epic_lastTick, L.tick_dt]
    rw [hdt, ht, L.epic_accept ep x ha hx, hl, L.dt_lt, L.epic_provider, L.epic_marketOpen, map_strategyIds L]
    split_ifs
    · rfl
    · simp only
      rw [hW]
      have haw : A.world { w with
          epics := w.epics.set e (ep.accept { x with dt := x.dt.to ep.zone }).1
          log := w.log ++ [.accepted e { x with dt := x.dt.to ep.zone }] } := by
        intro ep' hep'
        rcases List.mem_or_eq_of_mem_set hep' with h | h
        · exact hw ep' h
        · rw [h]
          exact ⟨L.allowed_accept ep x ha hx, L.last_tick x _ hx⟩
      rcases (ep.accept { x with dt := x.dt.to ep.zone }).2 with _ | err
      · simp only
        rw [map_updateOpenTrades L]
        exact map_execStrategies L henv _ _ _ _ _ (allowed_of_epics (updateOpenTrades_epics _ _ _).1 haw)
      · rfl

omit henv in
theorem allowed_exec (w : World) (hw : A.world w) (x : Cmd) (hx : A.cmd x) : A.world (w.exec env x).1 := by
  have hset : ∀ (i : ℕ) (ep' : Epic) (w' : World), w'.epics = w.epics.set i ep' →
      A.epic ep' ∧ A.last ep'.lastTick → A.world w' := by
    intro i ep' w' h h' a ha
    rw [h] at ha
    rcases List.mem_or_eq_of_mem_set ha with h1 | h1
    · exact hw a h1
    · rw [h1]; exact h'
  rcases x with ⟨e, t⟩ | o | ⟨e, ref, fs⟩ | ⟨e, s⟩ | ⟨e, ref, ind⟩
  · simp only [World.exec]
    unfold World.onNewTick
    rcases hep : w.epics[e]? with _ | ep
    · exact hw
    · simp only
      have ha : A.epic (ep.accept { t with dt := t.dt.to ep.zone }).1 ∧
          A.last (ep.accept { t with dt := t.dt.to ep.zone }).1.lastTick :=
        ⟨L.allowed_accept ep t (hw ep (List.mem_of_getElem? hep)).1 hx, L.last_tick t _ hx⟩
      split_ifs
      · exact hw
      · rcases (ep.accept { t with dt := t.dt.to ep.zone }).2 with _ | err
        · refine hset e (ep.accept { t with dt := t.dt.to ep.zone }).1 _ ?_ ha
          exact (execStrategies_epics _ _ _ _ _ _).1.trans (updateOpenTrades_epics _ _ _).1
        · exact hset e (ep.accept { t with dt := t.dt.to ep.zone }).1 _ rfl ha
  · exact allowed_of_epics (step_epics w o).1 hw
  · simp only [World.exec]
    unfold World.addFrameSet
    rcases hep : w.epics[e]? with _ | ep
    · exact hw
    · simp only
      unfold Epic.addFrameSet
      rcases hg : ep.frameSets.get? ref with _ | _
      · exact hset e _ _ rfl ⟨L.allowed_frameSet ep ref fs (hw ep (List.mem_of_getElem? hep)).1 hx hg,
          (hw ep (List.mem_of_getElem? hep)).2⟩
      · exact hw
  · simp only [World.exec]
    unfold World.addStrategy
    rcases w.epics[e]? with _ | ep <;> rcases w.strategies[s]? with _ | st
    · exact hw
    · exact hw
    · exact hw
    · simp only
      rcases ep.strategies.get? st.ref with _ | _
      · intro a ha
        have ha' : a ∈ w.epics.modify e (fun ep => { ep with strategies := ep.strategies.set st.ref s }) := ha
        obtain ⟨i, hi⟩ := List.mem_iff_getElem?.mp ha'
        rw [List.getElem?_modify] at hi
        rcases hb : w.epics[i]? with _ | b
        · rw [hb] at hi; simp at hi
        · rw [hb] at hi
          have := hw b (List.mem_of_getElem? hb)
          simp only [Option.map_eq_map, Option.map_some, Option.some.injEq] at hi
          rw [← hi]
          split_ifs
          · exact ⟨L.allowed_strategies _ _ this.1, this.2⟩
          · exact this
      · exact hw
  · simp only [World.exec]
    unfold World.addIndicator
    rcases hep : w.epics[e]? with _ | ep
    · exact hw
    · simp only
      rcases hg : ep.frameSets.get? ref with _ | fs
      · exact hw
      · exact hset e _ _ rfl ⟨L.allowed_indicator ep ref fs ind (hw ep (List.mem_of_getElem? hep)).1 hx hg,
          (hw ep (List.mem_of_getElem? hep)).2⟩

theorem map_exec (w : World) (hw : A.world w) (x : Cmd) (hx : A.cmd x) :
    (F.world w).exec env' (F.cmd x) = F.out (w.exec env x) := by
  have hset : ∀ (i : ℕ) (ep' : Epic), ({ F.world w with
      epics := (F.world w).epics.set i (F.epic ep') } : World) =
      F.world { w with epics := w.epics.set i ep' } := by
    intro i ep'
    unfold Spec.Mapping.world
    simp [List.map_set]
  rcases x with ⟨e, t⟩ | o | ⟨e, ref, fs⟩ | ⟨e, s⟩ | ⟨e, ref, ind⟩
  · exact map_onNewTick L henv w hw e t hx
  · exact map_step L w hw o
  · simp only [Spec.Mapping.cmd, World.exec]
    unfold World.addFrameSet
    rw [map_epic?]
    rcases w.epics[e]? with _ | ep
    · rfl
    · simp only [Option.map_some]
      have h : (F.epic ep).addFrameSet (F.fsetRef ref) (F.fset fs) = (ep.addFrameSet ref fs).map F.epic := by
        unfold Epic.addFrameSet
        rw [L.epic_frameSets, Dict.get?_rename L.fsetRef_inj, Dict.set_rename L.fsetRef_inj]
        rcases ep.frameSets.get? ref with _ | _
        · simp only [Option.map_none, Except.map]
          exact congrArg Except.ok (L.epic_setFrameSets ep _).symm
        · rfl
      rw [h]
      rcases ep.addFrameSet ref fs with err | ep'
      · rfl
      · exact congrArg (·, none) (hset e ep')
  · simp only [Spec.Mapping.cmd, World.exec]
    unfold World.addStrategy
    rw [map_epic?, map_strategy?]
    rcases w.epics[e]? with _ | ep <;> rcases w.strategies[s]? with _ | st
    · rfl
    · rfl
    · rfl
    · simp only [Option.map_some]
      have hr : (F.strategy st).ref = F.stratRef st.ref := rfl
      have hg : Dict.get? (ep.strategies.map (fun p => (F.stratRef p.1, p.2))) (F.stratRef st.ref) =
          (ep.strategies.get? st.ref).map id := Dict.get?_rename L.stratRef_inj id _ _
      rw [L.epic_strategies, L.epic_ref, hr, hg, Option.map_id, id_eq]
      rcases ep.strategies.get? st.ref with _ | _
      · simp only [Spec.Mapping.out, World.modEpic]
        rw [← map_modStrategy _ s (fun st => { st with epics := st.epics.set ep.ref e })
          (fun st => { st with epics := st.epics.set (F.epicRef ep.ref) e }) (map_addEpic L _ _)]
        unfold Spec.Mapping.world
        simp only
        rw [map_modify_comm F.epic (fun ep => { ep with strategies := ep.strategies.set st.ref s })
          (fun ep => { ep with strategies := ep.strategies.set (F.stratRef st.ref) s })
          (fun a => by
            rw [L.epic_strategies, Dict.set_renameKeys L.stratRef_inj]
            exact (L.epic_setStrategies a _).symm)]
      · rfl
  · simp only [Spec.Mapping.cmd, World.exec]
    unfold World.addIndicator
    rw [map_epic?]
    rcases w.epics[e]? with _ | ep
    · rfl
    · simp only [Option.map_some]
      have hg : (F.epic ep).frameSets.get? (F.fsetRef ref) = (ep.frameSets.get? ref).map F.fset := by
        rw [L.epic_frameSets]; exact Dict.get?_rename L.fsetRef_inj _ _ _
      rw [hg]
      rcases ep.frameSets.get? ref with _ | fs
      · rfl
      · simp only [Option.map_some]
        rw [L.fset_addIndicator fs ind hx]
        have he : ({ F.epic ep with
            frameSets := (F.epic ep).frameSets.set (F.fsetRef ref) (F.fset (fs.addIndicator ind).1) } : Epic) =
            F.epic { ep with frameSets := ep.frameSets.set ref (fs.addIndicator ind).1 } := by
          rw [L.epic_frameSets, Dict.set_rename L.fsetRef_inj F.fset]
          exact (L.epic_setFrameSets ep _).symm
        simp only [Spec.Mapping.out]
        rw [he, hset]

/-- Whole runs correspond. -/
theorem map_runCmds (w : World) (hw : A.world w) (l : List Cmd) (hl : ∀ x ∈ l, A.cmd x) :
    (F.world w).runCmds env' (l.map F.cmd) = F.world (w.runCmds env l) := by
  unfold World.runCmds
  induction l generalizing w with
  | nil => rfl
  | cons x l ih =>
    simp only [List.map_cons, List.foldl_cons]
    rw [map_exec L henv w hw x (hl x (by simp))]
    exact ih _ (allowed_exec L w hw x (hl x (by simp))) (fun y hy => hl y (by simp [hy]))

omit henv in
theorem allowed_runCmds (w : World) (hw : A.world w) (l : List Cmd) (hl : ∀ x ∈ l, A.cmd x) :
    A.world (w.runCmds env l) := by
  unfold World.runCmds
  induction l generalizing w with
  | nil => exact hw
  | cons x l ih => exact ih _ (allowed_exec L w hw x (hl x (by simp))) (fun y hy => hl y (by simp [hy]))

end

end

theorem update_without_trades {w : World} (hw : w.trades = []) (p : ℕ) (x : Tick) : w.updateOpenTrades p x = w := by
  unfold World.updateOpenTrades
  rcases w.providers[p]? with _ | pr
  · rfl
  · simp only
    have : w.openedTrades pr = [] := by
      unfold World.openedTrades
      rw [List.filter_eq_nil_iff]
      intro i _
      rw [hw]
      simp
    rw [this]
    rfl

end

/-! ## From the start of a program

A new epic shows the placeholder tick (epic.py:87-91), which no mapping touches. -/

/-- Spec: the corresponding epic, with the placeholder tick kept. -/
def Spec.Mapping.startEpic (F : Spec.Mapping) (e : Epic) : Epic :=
  { F.epic e with lastTick := if e.lastTick = Tick.epoch then e.lastTick else F.tick e.lastTick }

/-- Spec: the corresponding world, with the placeholder ticks kept. -/
def Spec.Mapping.start (F : Spec.Mapping) (w : World) : World := { F.world w with epics := w.epics.map F.startEpic }

/-- Spec: every epic has received a tick. -/
def Spec.AllSeen (w : World) : Prop := ∀ ep ∈ w.epics, ep.lastTick ≠ Tick.epoch

/-- Spec: a command that may come before every epic has received a tick: registrations, and ticks; a tick to an epic with
strategies only when all other epics have received theirs.  `S`: which first ticks are acceptable in a zone. -/
def Spec.EarlyCmd (A : Allowed) (S : Zone → Tick → Prop) (w : World) : Cmd → Prop
  | .tick e t => A.tick t ∧ ∀ ep, w.epics[e]? = some ep → S ep.zone t ∧
      (ep.strategies = [] ∨ ∀ i ep', i ≠ e → w.epics[i]? = some ep' → ep'.lastTick ≠ Tick.epoch)
  | .op _ => False
  | .addFrameSet _ _ fs => A.fset fs
  | .addStrategy _ _ => True
  | .addIndicator _ _ ind => A.ind ind

/-- Spec: a program that first gives every epic a tick (`EarlyCmd` until then), and then does anything allowed. -/
def Spec.Program [Arith] (A : Allowed) (S : Zone → Tick → Prop) (env : Env) : World → List Cmd → Prop
  | w, [] => Spec.AllSeen w
  | w, x :: l => (Spec.AllSeen w ∧ ∀ y ∈ x :: l, A.cmd y) ∨
      (Spec.EarlyCmd A S w x ∧ Spec.Program A S env (w.exec env x).1 l)

section
variable [Arith] {F : Spec.Mapping} {A : Allowed} (L : Lawful F A) {S : Zone → Tick → Prop}

/-- What has to be shown about first ticks. -/
structure Starts (F : Spec.Mapping) (S : Zone → Tick → Prop) : Prop where
  real : ∀ z x, S z x → ({ x with dt := x.dt.to z } : Tick) ≠ Tick.epoch
  order : ∀ z x, S z x → (F.dt (x.dt.to z)).lt Tick.epoch.dt = (x.dt.to z).lt Tick.epoch.dt

/-- The state while some epics may still show the placeholder. -/
def Early (A : Allowed) (w : World) : Prop :=
  (w.trades = [] ∨ Spec.AllSeen w) ∧ ∀ ep ∈ w.epics, A.epic ep ∧ (ep.lastTick ≠ Tick.epoch → A.last ep.lastTick)

omit [Arith] in
theorem early_world {w : World} (hw : Early A w) (h : Spec.AllSeen w) : A.world w :=
  fun ep hep => ⟨(hw.2 ep hep).1, (hw.2 ep hep).2 (h ep hep)⟩

include L

theorem startEpic_seen {ep : Epic} (h : ep.lastTick ≠ Tick.epoch) : F.startEpic ep = F.epic ep := by
  unfold Spec.Mapping.startEpic
  rw [if_neg h, ← L.epic_setLast]

theorem start_seen {w : World} (h : Spec.AllSeen w) : F.start w = F.world w := by
  have h1 : w.epics.map F.startEpic = w.epics.map F.epic :=
    List.map_congr_left fun ep hep => startEpic_seen L (h ep hep)
  unfold Spec.Mapping.start
  rw [h1]
  rfl

theorem early_exec {env env' : Env} (henv : F.RelEnv A env env') (hS : Starts F S) (w : World) (hw : Early A w) (x : Cmd)
    (hx : Spec.EarlyCmd A S w x) :
    ((F.start w).exec env' (F.cmd x)).1 = F.start (w.exec env x).1 ∧ Early A (w.exec env x).1 := by
  have hep : ∀ e : ℕ, (F.start w).epics[e]? = (w.epics[e]?).map F.startEpic := fun e => List.getElem?_map ..
  have hset : ∀ (i : ℕ) (ep' : Epic), ({ F.start w with
      epics := (F.start w).epics.set i (F.startEpic ep') } : World) = F.start { w with epics := w.epics.set i ep' } := by
    intro i ep'
    unfold Spec.Mapping.start Spec.Mapping.world
    simp [List.map_set]
  have hkeep : ∀ (e : ℕ) (ep ep' : Epic), w.epics[e]? = some ep → ep'.lastTick = ep.lastTick → A.epic ep' →
      ∀ w' : World, w'.epics = w.epics.set e ep' → w'.trades = w.trades → Early A w' := by
    intro e ep ep' hepe hlast hA w' hw' ht
    have hm := List.mem_of_getElem? hepe
    refine ⟨?_, ?_⟩
    · rcases hw.1 with h | h
      · exact Or.inl (ht.trans h)
      · right
        intro a ha
        rw [hw'] at ha
        rcases List.mem_or_eq_of_mem_set ha with h1 | h1
        · exact h a h1
        · rw [h1, hlast]; exact h ep hm
    · intro a ha
      rw [hw'] at ha
      rcases List.mem_or_eq_of_mem_set ha with h1 | h1
      · exact hw.2 a h1
      · rw [h1, hlast]; exact ⟨hA, (hw.2 ep hm).2⟩
  rcases x with ⟨e, t⟩ | o | ⟨e, ref, fs⟩ | ⟨e, s⟩ | ⟨e, ref, ind⟩
  · obtain ⟨ht, hx⟩ := hx
    simp only [Spec.Mapping.cmd, World.exec]
    unfold World.onNewTick
    rw [hep]
    rcases hepe : w.epics[e]? with _ | ep
    · exact ⟨rfl, hw⟩
    · simp only [Option.map_some]
      obtain ⟨hs, hstr⟩ := hx ep hepe
      have hm := List.mem_of_getElem? hepe
      have ha := (hw.2 ep hm).1
      have hz : (F.startEpic ep).zone = (F.epic ep).zone := rfl
      have hdt : (F.tick t).dt.to (F.startEpic ep).zone = F.dt (t.dt.to ep.zone) := by
        rw [hz, L.tick_dt, L.epic_convert ep t ha ht]
      have htk : ({ F.tick t with dt := F.dt (t.dt.to ep.zone) } : Tick) = F.tick { t with dt := t.dt.to ep.zone } :=
        (L.tick_setDt t _).symm
      have hlt : (F.dt (t.dt.to ep.zone)).lt (F.startEpic ep).lastTick.dt = (t.dt.to ep.zone).lt ep.lastTick.dt := by
        have : (F.startEpic ep).lastTick = if ep.lastTick = Tick.epoch then ep.lastTick else F.tick ep.lastTick := rfl
        rw [this]
        split_ifs with he
        · rw [he]
          exact hS.order ep.zone t hs
        · rw [L.tick_dt, L.dt_lt]
      have hreal := hS.real ep.zone t hs
      have hacc0 : (F.startEpic ep).accept (F.tick { t with dt := t.dt.to ep.zone }) =
          (F.epic ep).accept (F.tick { t with dt := t.dt.to ep.zone }) := rfl
      have hacc : (F.startEpic ep).accept (F.tick { t with dt := t.dt.to ep.zone }) =
          (F.startEpic (ep.accept { t with dt := t.dt.to ep.zone }).1,
            (ep.accept { t with dt := t.dt.to ep.zone }).2) := by
        rw [hacc0, L.epic_accept ep t ha ht, startEpic_seen L (by exact hreal)]
      have hst : (F.startEpic ep).strategies.map Prod.snd = ep.strategies.map Prod.snd := map_strategyIds L ep
      have hpr : (F.startEpic ep).provider = ep.provider := L.epic_provider ep
      have hmo : (F.startEpic ep).marketOpen = ep.marketOpen := L.epic_marketOpen ep
      have hW : ∀ r : Epic, ({ F.start w with
          epics := (F.start w).epics.set e (F.startEpic r)
          log := (F.start w).log ++ [.accepted e (F.tick { t with dt := t.dt.to ep.zone })] } : World) =
          F.start { w with
            epics := w.epics.set e r
            log := w.log ++ [.accepted e { t with dt := t.dt.to ep.zone }] } := by
        intro r
        unfold Spec.Mapping.start Spec.Mapping.world
        simp [Spec.Mapping.event, List.map_set]
      rw [hdt, htk, hacc, hlt, hst, hpr, hmo]
      split_ifs
      · exact ⟨rfl, hw⟩
      · simp only
        rw [hW]
        have hacA := L.allowed_accept ep t ha ht
        have hlast : (ep.accept { t with dt := t.dt.to ep.zone }).1.lastTick = { t with dt := t.dt.to ep.zone } := rfl
        have hearly : Early A { w with
            epics := w.epics.set e (ep.accept { t with dt := t.dt.to ep.zone }).1
            log := w.log ++ [.accepted e { t with dt := t.dt.to ep.zone }] } := by
          refine ⟨?_, ?_⟩
          · rcases hw.1 with h | h
            · exact Or.inl h
            · right
              intro a ha'
              rcases List.mem_or_eq_of_mem_set ha' with h1 | h1
              · exact h a h1
              · rw [h1, hlast]; exact hreal
          · intro a ha'
            rcases List.mem_or_eq_of_mem_set ha' with h1 | h1
            · exact hw.2 a h1
            · rw [h1, hlast]; exact ⟨hacA, fun _ => L.last_tick t _ ht⟩
        rcases (ep.accept { t with dt := t.dt.to ep.zone }).2 with _ | err
        · simp only
          by_cases hseen : Spec.AllSeen { w with
              epics := w.epics.set e (ep.accept { t with dt := t.dt.to ep.zone }).1
              log := w.log ++ [.accepted e { t with dt := t.dt.to ep.zone }] }
          · have haw := early_world hearly hseen
            generalize ({ w with
              epics := w.epics.set e (ep.accept { t with dt := t.dt.to ep.zone }).1
              log := w.log ++ [.accepted e { t with dt := t.dt.to ep.zone }] } : World) = v at hseen haw hearly ⊢
            have hupd : ((v.updateOpenTrades ep.provider { t with dt := t.dt.to ep.zone })).epics = v.epics :=
              (updateOpenTrades_epics _ _ _).1
            rw [start_seen L hseen, map_updateOpenTrades L, map_execStrategies L henv _ _ _ _ _
              (allowed_of_epics hupd haw)]
            have hfin := ((execStrategies_epics env e ep.marketOpen (t.dt.to ep.zone) (ep.strategies.map Prod.snd)
              (v.updateOpenTrades ep.provider { t with dt := t.dt.to ep.zone })).1).trans hupd
            have hseen' : Spec.AllSeen (execStrategies env e ep.marketOpen (t.dt.to ep.zone)
              (v.updateOpenTrades ep.provider { t with dt := t.dt.to ep.zone }) (ep.strategies.map Prod.snd)).1 := by
              unfold Spec.AllSeen
              rw [hfin]
              exact hseen
            refine ⟨(start_seen L hseen').symm, Or.inr hseen', ?_⟩
            rw [hfin]
            exact hearly.2
          · have hnil : ep.strategies = [] := by
              rcases hstr with h | h
              · exact h
              · exfalso
                refine hseen fun a ha' => ?_
                obtain ⟨i, hi⟩ := List.mem_iff_getElem?.mp ha'
                simp only at hi
                rw [List.getElem?_set] at hi
                split_ifs at hi with h1 h2
                · rw [← Option.some.inj hi, hlast]
                  exact hreal
                · exact h i a (fun h3 => h1 h3.symm) hi
            have htr : w.trades = [] := by
              rcases hearly.1 with h | h
              · exact h
              · exact absurd h hseen
            rw [hnil]
            simp only [List.map_nil, execStrategies]
            rw [update_without_trades (w := F.start _) (by
              show List.map F.trade w.trades = []
              rw [htr]; rfl), update_without_trades (by exact htr)]
            exact ⟨rfl, hearly⟩
        · exact ⟨rfl, hearly⟩
  · exact hx.elim
  · simp only [Spec.Mapping.cmd, World.exec]
    unfold World.addFrameSet
    rw [hep]
    rcases hepe : w.epics[e]? with _ | ep
    · exact ⟨rfl, hw⟩
    · simp only [Option.map_some]
      have ha := (hw.2 ep (List.mem_of_getElem? hepe)).1
      have hfs : (F.startEpic ep).frameSets = ep.frameSets.map (fun p => (F.fsetRef p.1, F.fset p.2)) :=
        L.epic_frameSets ep
      unfold Epic.addFrameSet
      rw [hfs, Dict.get?_rename L.fsetRef_inj, Dict.set_rename L.fsetRef_inj]
      rcases hg : ep.frameSets.get? ref with _ | _
      · simp only [Option.map_none]
        have he : ({ F.startEpic ep with
            frameSets := (ep.frameSets.set ref fs).map (fun p => (F.fsetRef p.1, F.fset p.2)) } : Epic) =
            F.startEpic { ep with frameSets := ep.frameSets.set ref fs } := by
          unfold Spec.Mapping.startEpic
          rw [L.epic_setFrameSets ep (ep.frameSets.set ref fs)]
        rw [he, hset]
        exact ⟨rfl, hkeep e ep { ep with frameSets := ep.frameSets.set ref fs } hepe rfl
          (L.allowed_frameSet ep ref fs ha hx hg) _ rfl rfl⟩
      · exact ⟨rfl, hw⟩
  · simp only [Spec.Mapping.cmd, World.exec]
    unfold World.addStrategy
    have hsw : (F.start w).strategies[s]? = (w.strategies[s]?).map F.strategy := List.getElem?_map ..
    rw [hep, hsw]
    rcases hepe : w.epics[e]? with _ | ep <;> rcases w.strategies[s]? with _ | st
    · exact ⟨rfl, hw⟩
    · exact ⟨rfl, hw⟩
    · exact ⟨rfl, hw⟩
    · simp only [Option.map_some]
      have hr : (F.strategy st).ref = F.stratRef st.ref := rfl
      have hst : (F.startEpic ep).strategies = ep.strategies.map (fun p => (F.stratRef p.1, p.2)) :=
        L.epic_strategies ep
      have hre : (F.startEpic ep).ref = F.epicRef ep.ref := L.epic_ref ep
      have hg : Dict.get? (ep.strategies.map (fun p => (F.stratRef p.1, p.2))) (F.stratRef st.ref) =
          (ep.strategies.get? st.ref).map id := Dict.get?_rename L.stratRef_inj id _ _
      rw [hst, hre, hr, hg, Option.map_id, id_eq]
      have ha := (hw.2 ep (List.mem_of_getElem? hepe)).1
      rcases ep.strategies.get? st.ref with _ | _
      · simp only [World.modEpic]
        have hmod : w.epics.modify e (fun ep => { ep with strategies := ep.strategies.set st.ref s }) =
            w.epics.set e { ep with strategies := ep.strategies.set st.ref s } := by
          rw [List.modify_eq_set_getElem? (fun ep : Epic => { ep with strategies := ep.strategies.set st.ref s })]
          rw [hepe]
          rfl
        refine ⟨?_, hkeep e ep { ep with strategies := ep.strategies.set st.ref s } hepe rfl
          (L.allowed_strategies _ _ ha) _ hmod rfl⟩
        have h1 := map_modStrategy (F := F)
          { w with epics := w.epics.modify e (fun ep => { ep with strategies := ep.strategies.set st.ref s }) } s
          (fun st => { st with epics := st.epics.set ep.ref e })
          (fun st => { st with epics := st.epics.set (F.epicRef ep.ref) e }) (map_addEpic L _ _)
        have h2 : (w.epics.map F.startEpic).modify e
            (fun ep => { ep with strategies := ep.strategies.set (F.stratRef st.ref) s }) =
            (w.epics.modify e (fun ep => { ep with strategies := ep.strategies.set st.ref s })).map F.startEpic := by
          refine map_modify_comm F.startEpic (fun ep => { ep with strategies := ep.strategies.set st.ref s })
            (fun ep => { ep with strategies := ep.strategies.set (F.stratRef st.ref) s }) (fun a => ?_) _ _
          unfold Spec.Mapping.startEpic
          rw [L.epic_setStrategies a (a.strategies.set st.ref s), L.epic_strategies,
            Dict.set_renameKeys L.stratRef_inj]
        have h3 := congrArg (fun v : World => ({ v with
          epics := (w.epics.map F.startEpic).modify e
            (fun ep => { ep with strategies := ep.strategies.set (F.stratRef st.ref) s }) } : World)) h1
        refine h3.trans ?_
        unfold Spec.Mapping.start
        simp only
        rw [h2]
        rfl
      · exact ⟨rfl, hw⟩
  · simp only [Spec.Mapping.cmd, World.exec]
    unfold World.addIndicator
    rw [hep]
    rcases hepe : w.epics[e]? with _ | ep
    · exact ⟨rfl, hw⟩
    · simp only [Option.map_some]
      have ha := (hw.2 ep (List.mem_of_getElem? hepe)).1
      have hfs : (F.startEpic ep).frameSets = ep.frameSets.map (fun p => (F.fsetRef p.1, F.fset p.2)) :=
        L.epic_frameSets ep
      rw [hfs, Dict.get?_rename L.fsetRef_inj]
      rcases hg : ep.frameSets.get? ref with _ | fs
      · exact ⟨rfl, hw⟩
      · simp only [Option.map_some]
        rw [L.fset_addIndicator fs ind hx]
        have he : ({ F.startEpic ep with
            frameSets := Dict.set (ep.frameSets.map (fun p => (F.fsetRef p.1, F.fset p.2))) (F.fsetRef ref)
              (F.fset (fs.addIndicator ind).1) } : Epic) =
            F.startEpic { ep with frameSets := ep.frameSets.set ref (fs.addIndicator ind).1 } := by
          rw [Dict.set_rename L.fsetRef_inj F.fset]
          unfold Spec.Mapping.startEpic
          rw [L.epic_setFrameSets ep (ep.frameSets.set ref (fs.addIndicator ind).1)]
        simp only
        rw [he, hset]
        exact ⟨rfl, hkeep e ep { ep with frameSets := ep.frameSets.set ref (fs.addIndicator ind).1 } hepe rfl
          (L.allowed_indicator ep ref fs ind ha hx hg) _ rfl rfl⟩

/-- Whole programs correspond. -/
theorem map_program {env env' : Env} (henv : F.RelEnv A env env') (hS : Starts F S) (l : List Cmd) : ∀ w : World,
    Early A w → Spec.Program A S env w l → (F.start w).runCmds env' (l.map F.cmd) = F.world (w.runCmds env l) := by
  induction l with
  | nil => intro w _ hl; exact start_seen L hl
  | cons x l ih =>
    intro w hw hl
    rcases hl with ⟨h1, h2⟩ | ⟨h1, h2⟩
    · rw [start_seen L h1]
      exact map_runCmds L henv w (early_world hw h1) _ h2
    · obtain ⟨h3, h4⟩ := early_exec L henv hS w hw x h1
      have h5 := ih _ h4 h2
      unfold World.runCmds at h5 ⊢
      simp only [List.map_cons, List.foldl_cons]
      rw [h3]
      exact h5

/-- At the end of such a program the world is within the restrictions. -/
theorem allowed_program {env env' : Env} (hS : Starts F S) (henv : F.RelEnv A env env') (l : List Cmd) : ∀ w : World,
    Early A w → Spec.Program A S env w l → A.world (w.runCmds env l) := by
  induction l with
  | nil => intro w hw hl; exact early_world hw hl
  | cons x l ih =>
    intro w hw hl
    rcases hl with ⟨h1, h2⟩ | ⟨h1, h2⟩
    · exact allowed_runCmds L w (early_world hw h1) _ h2
    · exact ih _ (early_exec L henv hS w hw x h1).2 h2

end

end Estrade
