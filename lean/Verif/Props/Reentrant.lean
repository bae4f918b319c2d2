import Verif.Reentrant
import Verif.Lemmas.Blank
import Verif.Props.Requests
import Verif.Props.Epics
import Verif.Props.Fills
import Verif.Demo

/-!
# C77: callbacks that feed ticks and register objects
-/

set_option linter.style.haveILetI false
set_option linter.unusedSectionVars false
set_option autoImplicit false

namespace Estrade

/-- Spec: the ticks an epic accepted are history, which strategy was called is not. -/
def Spec.isTick : Event → Bool
  | .accepted _ _ => true
  | .notify _ _ _ => false

/-- Spec: two worlds with the same epics (last tick, market state, frames, indicators, registered strategies), providers,
trades, accepted ticks, and strategies up to `paused_until`. -/
structure Spec.SameBooks (w w' : World) : Prop where
  epics : w.epics = w'.epics
  providers : w.providers = w'.providers
  trades : w.trades = w'.trades
  strategies : w.strategies.map (fun s => (s.ref, s.epics, s.stopped, s.trades)) =
    w'.strategies.map (fun s => (s.ref, s.epics, s.stopped, s.trades))
  ticks : w.log.filter Spec.isTick = w'.log.filter Spec.isTick

/-- Spec: every command the code may issue satisfies `Q`. -/
def RProg.All (Q : Cmd → Prop) : RProg → Prop
  | .done => True
  | .raise _ => True
  | .act c k => Q c ∧ ∀ w err, (k w err).All Q

/-- Spec: every command issued by a callback satisfies `Q`. -/
def REnv.All (env : REnv) (Q : Cmd → Prop) : Prop := ∀ s cb e w, (env s cb e w).All Q

section
variable [Arith]

/-! ## Worlds up to pauses and notifications -/

/-- A strategy without its pause. -/
def Strategy.awake (s : Strategy) : Strategy := { s with pausedUntil := none }

/-- A world without pauses and notifications. -/
def World.core (w : World) : World :=
  { w with strategies := w.strategies.map Strategy.awake, log := w.log.filter Spec.isTick }

theorem core_core (w : World) : w.core.core = w.core := by
  unfold World.core
  simp only [List.map_map, List.filter_filter, Bool.and_self]
  rfl

theorem core_sameBooks {w w' : World} (h : w.core = w'.core) : Spec.SameBooks w w' := by
  unfold World.core at h
  simp only [World.mk.injEq] at h
  obtain ⟨h1, h2, h3, h4, h5⟩ := h
  refine ⟨h1, h3, h4, ?_, h5⟩
  have := congrArg (List.map (fun s : Strategy => (s.ref, s.epics, s.stopped, s.trades))) h2
  simp only [List.map_map] at this
  exact this

theorem sameBooks_core {w w' : World} (h : Spec.SameBooks w w') : w.core = w'.core := by
  unfold World.core
  rw [h.epics, h.providers, h.trades, h.ticks]
  congr 1
  have := congrArg (List.map (fun x : String × Dict ℕ × Bool × List ℕ =>
    (⟨x.1, x.2.1, none, x.2.2.1, x.2.2.2⟩ : Strategy))) h.strategies
  simp only [List.map_map] at this
  exact this

theorem core_strategy (w : World) (s : ℕ) : w.core.strategies[s]? = (w.strategies[s]?).map Strategy.awake :=
  List.getElem?_map

theorem core_closeOn (w : World) (p i : ℕ) (q : Option ℤ) :
    w.core.closeOn p i q = (w.closeOn p i q).map World.core := by
  unfold World.closeOn
  rw [show w.core.trades = w.trades from rfl, show w.core.epics = w.epics from rfl]
  rcases w.trades[i]? with _ | t
  · rfl
  · dsimp only
    rcases w.epics[t.epic]? with _ | ep <;> rfl

theorem core_netLoop (p : ℕ) (l : List ℕ) : ∀ (w : World) (new : Trade),
    netLoop p w.core new l = (netLoop p w new l).map (fun r => (r.1.core, r.2)) := by
  induction l with
  | nil => intro w new; rfl
  | cons i rest ih =>
    intro w new
    unfold netLoop
    rw [show w.core.trades = w.trades from rfl]
    rcases ht : w.trades[i]? with _ | t
    · rfl
    · simp only
      split_ifs
      · exact ih w new
      · simp only [bind, Except.bind]
        rw [core_closeOn]
        rcases hc : w.closeOn p i (some (min t.openedQty new.openQty)) with err | w'
        · rfl
        · simp only [Except.map]
          exact ih w' { new with openQty := new.openQty - min t.openedQty new.openQty }
      · exact ih w new

theorem core_modStrategy (w : World) (s : ℕ) (f g : Strategy → Strategy) (h : ∀ st, g st.awake = (f st).awake) :
    w.core.modStrategy s g = (w.modStrategy s f).core := by
  unfold World.core World.modStrategy
  simp only [World.mk.injEq, true_and, and_true]
  apply List.ext_getElem?
  intro n
  simp only [List.getElem?_modify, List.getElem?_map]
  rcases w.strategies[n]? with _ | st
  · rfl
  · by_cases hn : s = n <;> simp [hn, h]

theorem core_register (w : World) (p i : ℕ) (s : Option ℕ) : w.core.register p i s = (w.register p i s).core := by
  unfold World.register
  rcases s with _ | s
  · rfl
  · simp only
    rw [show (w.core.modProvider p (fun pr => { pr with trades := pr.trades ++ [i] })) =
      (w.modProvider p (fun pr => { pr with trades := pr.trades ++ [i] })).core from rfl,
      core_modStrategy _ s (fun st => { st with trades := st.trades ++ [i] }) _ (fun _ => rfl)]
    rfl

theorem core_providerOpen (w : World) (p : ℕ) (new : Trade) :
    w.core.providerOpen p new = (w.providerOpen p new).map World.core := by
  unfold World.providerOpen
  rw [show w.core.providers = w.providers from rfl]
  rcases hp : w.providers[p]? with _ | pr
  · rfl
  · simp only
    cases pr.kind with
    | custom =>
      simp only [Except.map]
      rw [← core_register]; rfl
    | backtests =>
      simp only [bind, Except.bind]
      rw [show w.core.openedTrades pr = w.openedTrades pr from rfl, core_netLoop]
      rcases netLoop p w new (w.openedTrades pr) with err | r
      · rfl
      · simp only [Except.map]
        split_ifs
        · rfl
        · show _ = Except.ok (World.core _)
          rw [← core_register]; rfl

theorem core_closeTrade (w : World) (e i : ℕ) (q : Option ℤ) :
    w.core.closeTrade e i q = (w.closeTrade e i q).map World.core := by
  unfold World.closeTrade
  rw [show w.core.epics = w.epics from rfl]
  rcases w.epics[e]? with _ | ep
  · rfl
  · exact core_closeOn w _ _ _

theorem core_closeOpenedLoop (q : Option ℤ) (l : List ℕ) : ∀ (w : World),
    closeOpenedLoop q w.core l = (closeOpenedLoop q w l).map World.core := by
  induction l with
  | nil => intro w; rfl
  | cons i rest ih =>
    intro w
    unfold closeOpenedLoop
    rw [show w.core.trades = w.trades from rfl]
    rcases ht : w.trades[i]? with _ | t
    · rfl
    · simp only
      split_ifs
      · exact ih w
      · simp only [bind, Except.bind]
        rw [core_closeTrade]
        rcases w.closeTrade t.epic i q with err | w'
        · rfl
        · exact ih w'

theorem core_orKeep (w : World) (r : Except PyErr World) :
    orKeep w.core (r.map World.core) = ((orKeep w r).1.core, (orKeep w r).2) := by
  cases r <;> rfl

theorem core_runThread (w : World) (p i : ℕ) (st : Option Status) :
    w.core.runThread p i st = ((w.runThread p i st).1.core, (w.runThread p i st).2) := by
  have hs : ∀ (u : World) tg st, u.core.setStatus tg st = (u.setStatus tg st).core := by
    intro u tg st; cases tg <;> rfl
  unfold World.runThread
  rw [show w.core.providers = w.providers from rfl]
  rcases w.providers[p]? with _ | pr
  · rfl
  · simp only
    rcases pr.threads[i]? with _ | th
    · rfl
    · simp only
      split_ifs
      · cases pr.kind
        · simp only
          rw [← hs]; rfl
        · cases st
          · rfl
          · simp only
            rw [← hs]; rfl
      · rfl

theorem step_core (w : World) (o : Op) : (w.core.step o).1.core = (w.step o).1.core := by
  have key : ∀ r : World × Option PyErr, w.core.step o = (r.1.core, r.2) → r = w.step o →
      (w.core.step o).1.core = (w.step o).1.core := by
    intro r h1 h2
    rw [h1, ← h2]; exact core_core _
  cases o with
  | openTrade e s d q =>
    refine key _ ?_ rfl
    simp only [World.step]
    rw [show w.core.epics = w.epics from rfl]
    rcases w.epics[e]? with _ | ep
    · rfl
    · simp only
      rw [show w.core.strategies.length = w.strategies.length by simp [World.core]]
      split_ifs
      · rw [← core_orKeep]
        congr 1
        simp only [bind, Except.bind]
        rcases ht : Trade.openFromTick ep.lastTick e d q s with err | t
        · rfl
        · exact core_providerOpen w _ t
      · rfl
  | closeTrade e i q => refine key _ ?_ rfl; simp only [World.step]; rw [core_closeTrade, core_orKeep]
  | closeOpened s q =>
    refine key _ ?_ rfl
    simp only [World.step]
    rw [core_strategy]
    rcases w.strategies[s]? with _ | st
    · rfl
    · simp only [Option.map_some]
      rw [show st.awake.trades = st.trades from rfl, core_closeOpenedLoop, core_orKeep]
  | update i v => exact key _ rfl rfl
  | close i v dt q => exact key _ rfl rfl
  | pause s d =>
    simp only [World.step]
    rw [← core_modStrategy w.core s (fun st => { st with pausedUntil := d }) id (fun st => rfl),
      ← core_modStrategy w s (fun st => { st with pausedUntil := d }) id (fun st => rfl), core_core]
  | stop s b =>
    refine key _ ?_ rfl
    simp only [World.step]
    rw [core_modStrategy w s (fun st => { st with stopped := b }) _ (fun _ => rfl)]
  | thread p i st => refine key _ ?_ rfl; exact core_runThread w p i st

theorem step_congr {u v : World} (h : u.core = v.core) (o : Op) : (u.step o).1.core = (v.step o).1.core := by
  rw [← step_core, h, step_core]

/-! ## Callbacks that do nothing -/

/-- Spec: callbacks that do nothing. -/
def Spec.idle : Env := fun _ _ _ _ => .done

/-- `on_new_tick` without the strategies. -/
def World.take (w : World) (e : ℕ) (k : Tick) : World :=
  match w.epics[e]? with
  | none => w
  | some ep =>
    let tick := { k with dt := k.dt.to ep.zone }
    if tick.dt.lt ep.lastTick.dt then w
    else
      let r := ep.accept tick
      let w := { w with epics := w.epics.set e r.1, log := w.log ++ [.accepted e tick] }
      match r.2 with
      | some _ => w
      | none => w.updateOpenTrades ep.provider tick

theorem core_set_awake (w : World) (s : ℕ) (st st' : Strategy) (hs : w.strategies[s]? = some st)
    (h : st'.awake = st.awake) : ({ w with strategies := w.strategies.set s st' } : World).core = w.core := by
  unfold World.core
  simp only [World.mk.injEq, true_and, and_true]
  apply List.ext_getElem?
  intro n
  simp only [List.getElem?_map, List.getElem?_set]
  by_cases hn : s = n
  · subst hn
    rw [if_pos rfl, if_pos (getElem?_lt hs), hs]; simp [h]
  · rw [if_neg hn]

theorem isActive_awake (st : Strategy) (dt : DT) : (st.isActive dt).2.awake = st.awake := by
  unfold Strategy.isActive
  split_ifs
  · rfl
  · split
    · rfl
    · split_ifs <;> rfl

theorem core_notify (w : World) (s e : ℕ) (cb : Cb) :
    ({ w with log := w.log ++ [.notify s e cb] } : World).core = w.core := by
  unfold World.core
  simp [Spec.isTick]

theorem idle_call (w : World) (s : ℕ) (cb : Cb) (e : ℕ) : (w.call Spec.idle s cb e).1.core = w.core ∧
    (w.call Spec.idle s cb e).2 = none := ⟨core_notify w s e cb, rfl⟩

theorem idle_callIf (w : World) (c : Bool) (s : ℕ) (cb : Cb) (e : ℕ) : (w.callIf Spec.idle c s cb e).1.core = w.core := by
  unfold World.callIf
  split_ifs
  · exact core_notify w s e cb
  · rfl

theorem andThen_core {w : World} {r : World × Option PyErr} {f : World → World × Option PyErr} (h1 : r.1.core = w.core)
    (h2 : ∀ u : World, u.core = w.core → (f u).1.core = w.core) : (andThen r f).1.core = w.core := by
  obtain ⟨u, err⟩ := r
  cases err with
  | none => exact h2 u h1
  | some e => exact h1

theorem idle_strategies (e : ℕ) (b : Bool) (dt : DT) (l : List ℕ) : ∀ w : World,
    (execStrategies Spec.idle e b dt w l).1.core = w.core := by
  induction l with
  | nil => intro w; rfl
  | cons s rest ih =>
    intro w
    unfold execStrategies
    refine andThen_core ?_ (fun u hu => (ih u).trans hu)
    unfold World.execStrategy
    rcases hs : w.strategies[s]? with _ | st
    · rfl
    · simp only
      have h0 := core_set_awake w s st _ hs (isActive_awake st dt)
      split_ifs
      · unfold World.notifyAll
        refine andThen_core ((idle_callIf _ _ _ _ _).trans h0) fun u hu => ?_
        refine andThen_core ((idle_callIf _ _ _ _ _).trans hu) fun u hu => ?_
        refine andThen_core ((idle_callIf _ _ _ _ _).trans hu) fun u hu => ?_
        exact (idle_call _ _ _ _).1.trans hu
      · exact h0

theorem idle_tick (w : World) (e : ℕ) (k : Tick) : (w.onNewTick Spec.idle e k).1.core = (w.take e k).core := by
  unfold World.onNewTick World.take
  rcases w.epics[e]? with _ | ep
  · rfl
  · simp only
    split_ifs
    · rfl
    · rcases (ep.accept { k with dt := k.dt.to ep.zone }).2 with _ | err
      · exact idle_strategies _ _ _ _ _
      · rfl

theorem core_updateOpenTrades (w : World) (p : ℕ) (k : Tick) :
    w.core.updateOpenTrades p k = (w.updateOpenTrades p k).core := by
  unfold World.updateOpenTrades
  rw [show w.core.providers = w.providers from rfl]
  rcases w.providers[p]? with _ | pr
  · rfl
  · simp only
    rw [show w.core.openedTrades pr = w.openedTrades pr from rfl]
    generalize w.openedTrades pr = l
    induction l generalizing w with
    | nil => rfl
    | cons i l ih => exact ih { w with trades := w.trades.modify i (fun t => t.updateFromTick k) }

theorem core_accepted (w : World) (es : List Epic) (e : ℕ) (k : Tick) :
    (⟨es, w.core.strategies, w.core.providers, w.core.trades, w.core.log ++ [.accepted e k]⟩ : World) =
      World.core ⟨es, w.strategies, w.providers, w.trades, w.log ++ [.accepted e k]⟩ := by
  unfold World.core
  simp only [List.filter_append]
  rfl

theorem core_take (w : World) (e : ℕ) (k : Tick) : w.core.take e k = (w.take e k).core := by
  unfold World.take
  rw [show w.core.epics = w.epics from rfl]
  rcases w.epics[e]? with _ | ep
  · rfl
  · simp only
    split_ifs
    · rfl
    · rcases (ep.accept { k with dt := k.dt.to ep.zone }).2 with _ | err
      · simp only
        rw [← core_updateOpenTrades, ← core_accepted]
      · exact core_accepted _ _ _ _

theorem core_addStrategy (w : World) (e s : ℕ) : (w.core.addStrategy e s).1 = (w.addStrategy e s).1.core := by
  unfold World.addStrategy
  rw [show w.core.epics = w.epics from rfl, core_strategy]
  rcases w.epics[e]? with _ | ep
  · rfl
  · rcases w.strategies[s]? with _ | st
    · rfl
    · simp only [Option.map_some]
      rw [show st.awake.ref = st.ref from rfl]
      split
      · rfl
      · exact core_modStrategy (w.modEpic e (fun ep => { ep with strategies := ep.strategies.set st.ref s })) s
          (fun st => { st with epics := st.epics.set ep.ref e }) _ (fun _ => rfl)

theorem core_addFrameSet (w : World) (e : ℕ) (ref : String) (fs : FrameSet) :
    (w.core.addFrameSet e ref fs).1 = (w.addFrameSet e ref fs).1.core := by
  unfold World.addFrameSet
  rw [show w.core.epics = w.epics from rfl]
  rcases w.epics[e]? with _ | ep
  · rfl
  · simp only
    rcases ep.addFrameSet ref fs with err | ep' <;> rfl

theorem core_addIndicator (w : World) (e : ℕ) (ref : String) (ind : Indicator) :
    (w.core.addIndicator e ref ind).1 = (w.addIndicator e ref ind).1.core := by
  unfold World.addIndicator
  rw [show w.core.epics = w.epics from rfl]
  rcases w.epics[e]? with _ | ep
  · rfl
  · simp only
    rcases ep.frameSets.get? ref with _ | fs <;> rfl

theorem exec_congr {u v : World} (h : u.core = v.core) (c : Cmd) :
    (u.exec Spec.idle c).1.core = (v.exec Spec.idle c).1.core := by
  cases c with
  | tick e k =>
    show (u.onNewTick Spec.idle e k).1.core = (v.onNewTick Spec.idle e k).1.core
    rw [idle_tick, idle_tick, ← core_take, ← core_take, h]
  | op o => exact step_congr h o
  | addFrameSet e ref fs =>
    show (u.addFrameSet e ref fs).1.core = (v.addFrameSet e ref fs).1.core
    rw [← core_addFrameSet, ← core_addFrameSet, h]
  | addStrategy e s =>
    show (u.addStrategy e s).1.core = (v.addStrategy e s).1.core
    rw [← core_addStrategy, ← core_addStrategy, h]
  | addIndicator e ref ind =>
    show (u.addIndicator e ref ind).1.core = (v.addIndicator e ref ind).1.core
    rw [← core_addIndicator, ← core_addIndicator, h]

theorem runCmds_congr {u v : World} (h : u.core = v.core) (l : List Cmd) :
    (u.runCmds Spec.idle l).core = (v.runCmds Spec.idle l).core := by
  induction l generalizing u v with
  | nil => exact h
  | cons c l ih => exact ih (exec_congr h c)

/-! ## Every run is a flat run -/

/-- From `w` one gets to `w'` by a list of commands that satisfy `Q`, callbacks doing nothing. -/
def FlatTo (Q : Cmd → Prop) (w w' : World) : Prop := ∃ l, (∀ c ∈ l, Q c) ∧ w'.core = (w.runCmds Spec.idle l).core

theorem FlatTo.same {Q : Cmd → Prop} {w w' : World} (h : w'.core = w.core) : FlatTo Q w w' := ⟨[], by simp, h⟩

theorem FlatTo.trans {Q : Cmd → Prop} {u v w : World} (h1 : FlatTo Q u v) (h2 : FlatTo Q v w) : FlatTo Q u w := by
  obtain ⟨l1, a1, b1⟩ := h1
  obtain ⟨l2, a2, b2⟩ := h2
  refine ⟨l1 ++ l2, fun c hc => (List.mem_append.mp hc).elim (a1 c) (a2 c), ?_⟩
  rw [b2, runCmds_congr b1]
  unfold World.runCmds
  rw [List.foldl_append]

theorem FlatTo.cmd {Q : Cmd → Prop} {w : World} {c : Cmd} (hc : Q c) : FlatTo Q w (w.exec Spec.idle c).1 :=
  ⟨[c], by simpa using hc, rfl⟩

theorem FlatTo.andThen {Q : Cmd → Prop} {w : World} {r : World × Option PyErr} {f : World → World × Option PyErr}
    (h1 : FlatTo Q w r.1) (h2 : ∀ u, FlatTo Q u (f u).1) : FlatTo Q w (andThen r f).1 := by
  obtain ⟨u, err⟩ := r
  cases err with
  | none => exact h1.trans (h2 u)
  | some e => exact h1

section
variable {Q : Cmd → Prop} {tick : TickFn} (ht : ∀ w e k, Q (.tick e k) → FlatTo Q w (tick w e k).1) {env : REnv}
  (henv : env.All Q)
include ht

theorem rexec_flat (w : World) (c : Cmd) (hc : Q c) : FlatTo Q w (w.rexec tick c).1 := by
  cases c with
  | tick e k => exact ht w e k hc
  | op o => exact FlatTo.cmd (c := .op o) hc
  | addFrameSet e ref fs => exact FlatTo.cmd (c := .addFrameSet e ref fs) hc
  | addStrategy e s => exact FlatTo.cmd (c := .addStrategy e s) hc
  | addIndicator e ref ind => exact FlatTo.cmd (c := .addIndicator e ref ind) hc

theorem rrunProg_flat (p : RProg) (hp : p.All Q) (w : World) : FlatTo Q w (p.run tick w).1 := by
  induction p generalizing w with
  | done => exact .same rfl
  | raise e => exact .same rfl
  | act c k ih => exact (rexec_flat ht w c hp.1).trans (ih _ _ (hp.2 _ _) _)

include henv

theorem rcall_flat (w : World) (s : ℕ) (cb : Cb) (e : ℕ) : FlatTo Q w (w.rcall tick env s cb e).1 :=
  (FlatTo.same (core_notify w s e cb)).trans (rrunProg_flat ht _ (henv s cb e _) _)

theorem rcallIf_flat (c : Bool) (w : World) (s : ℕ) (cb : Cb) (e : ℕ) : FlatTo Q w (w.rcallIf tick env c s cb e).1 := by
  unfold World.rcallIf
  split_ifs
  · exact rcall_flat ht henv w s cb e
  · exact .same rfl

theorem rexecStrategy_flat (w : World) (e s : ℕ) (b : Bool) : FlatTo Q w (w.rexecStrategy tick env e s b).1 := by
  unfold World.rexecStrategy
  rcases w.epics[e]? with _ | ep
  · exact .same rfl
  · rcases hs : w.strategies[s]? with _ | st
    · exact .same rfl
    · simp only
      have h0 := core_set_awake w s st _ hs (isActive_awake st ep.lastTick.dt)
      split_ifs
      · refine (FlatTo.same h0).trans ?_
        unfold World.rnotifyAll
        refine FlatTo.andThen ?_ fun u => FlatTo.andThen (rcallIf_flat ht henv _ _ _ _ _) fun u => rcall_flat ht henv _ _ _ _
        split_ifs <;> exact rcallIf_flat ht henv _ _ _ _ _
      · exact .same h0

theorem rexecStrategies_flat (e : ℕ) (b : Bool) (n : ℕ) (l : List ℕ) :
    ∀ w : World, FlatTo Q w (rexecStrategies tick env e b n w l).1 := by
  induction l with
  | nil => intro w; unfold rexecStrategies; split_ifs <;> exact .same rfl
  | cons s rest ih =>
    intro w
    unfold rexecStrategies
    split_ifs
    · exact FlatTo.andThen (rexecStrategy_flat ht henv w e s b) ih
    · exact .same rfl

end

/-- A nested tick is the tick without callbacks, then what the callbacks do. -/
theorem rtick_split {Q : Cmd → Prop} {env : REnv} {d : ℕ}
    (ht : ∀ w e k, Q (.tick e k) → FlatTo Q w (World.rtick env d w e k).1) (henv : env.All Q) (w : World) (e : ℕ) (k : Tick) :
    FlatTo Q (w.exec Spec.idle (.tick e k)).1 (World.rtick env (d + 1) w e k).1 := by
  have h1 : FlatTo Q (w.exec Spec.idle (.tick e k)).1 (w.take e k) := .same (idle_tick w e k).symm
  refine h1.trans ?_
  unfold World.rtick World.take
  rcases w.epics[e]? with _ | ep
  · exact .same rfl
  · simp only
    split_ifs
    · exact .same rfl
    · rcases (ep.accept { k with dt := k.dt.to ep.zone }).2 with _ | err
      · exact rexecStrategies_flat ht henv _ _ _ _ _
      · exact .same rfl

theorem rtick_flat {Q : Cmd → Prop} {env : REnv} (henv : env.All Q) (d : ℕ) :
    ∀ w e k, Q (.tick e k) → FlatTo Q w (World.rtick env d w e k).1 := by
  induction d with
  | zero => intro w e k _; exact .same rfl
  | succ d ih => intro w e k hk; exact (FlatTo.cmd hk).trans (rtick_split ih henv w e k)

theorem rexec_split {Q : Cmd → Prop} {env : REnv} (henv : env.All Q) (d : ℕ) (w : World) (c : Cmd) :
    FlatTo Q (w.exec Spec.idle c).1 (w.rexec (World.rtick env (d + 1)) c).1 := by
  cases c with
  | tick e k => exact rtick_split (rtick_flat henv d) henv w e k
  | op o => exact .same rfl
  | addFrameSet e ref fs => exact .same rfl
  | addStrategy e s => exact .same rfl
  | addIndicator e ref ind => exact .same rfl

/-! ## The theorems -/

/-- C77: whatever the callbacks do, nested ticks and registrations included, a run has the same outcome (up to
`paused_until`) as the flat program that issues the same commands one after the other, callbacks doing nothing: the
commands of the main program in their order, those of callbacks after the command that caused them. -/
theorem C77_flat {Q : Cmd → Prop} {env : REnv} (henv : env.All Q) (d : ℕ) (w : World) (l : List Cmd) (hl : ∀ c ∈ l, Q c) :
    ∃ l', l.Sublist l' ∧ (∀ c ∈ l', Q c) ∧ Spec.SameBooks (w.rrun env (d + 1) l) (w.runCmds Spec.idle l') := by
  suffices h : ∃ l', l.Sublist l' ∧ (∀ c ∈ l', Q c) ∧ (w.rrun env (d + 1) l).core = (w.runCmds Spec.idle l').core by
    obtain ⟨l', h1, h2, h3⟩ := h
    exact ⟨l', h1, h2, core_sameBooks h3⟩
  induction l generalizing w with
  | nil => exact ⟨[], .slnil, by simp, rfl⟩
  | cons c l ih =>
    obtain ⟨l1, a1, b1⟩ := rexec_split henv d w c
    obtain ⟨l2, a2, b2, c2⟩ := ih ((w.rexec (World.rtick env (d + 1)) c).1) (fun x hx => hl x (by simp [hx]))
    refine ⟨c :: (l1 ++ l2), (a2.trans (List.sublist_append_right l1 l2)).cons_cons c, ?_, ?_⟩
    · intro x hx
      rcases List.mem_cons.mp hx with rfl | hx
      · exact hl _ (by simp)
      · exact (List.mem_append.mp hx).elim (a1 x) (b2 x)
    · show ((w.rexec (World.rtick env (d + 1)) c).1.rrun env (d + 1) l).core = _
      rw [c2, runCmds_congr b1]
      show _ = ((w.exec Spec.idle c).1.runCmds Spec.idle (l1 ++ l2)).core
      unfold World.runCmds
      rw [List.foldl_append]

/-- C77: what holds in every flat run, and does not concern pauses and notifications, holds in every run. -/
theorem C77_invariant {P : World → Prop} (hP : ∀ u v, Spec.SameBooks u v → P v → P u)
    (h : ∀ w, Reachable Spec.idle w → P w) {env : REnv} {d : ℕ} {w : World} (hw : RReachable env (d + 1) w) : P w := by
  obtain ⟨w0, h0, l, rfl⟩ := hw
  obtain ⟨l', -, -, hs⟩ := C77_flat (Q := fun _ => True) (env := env) (by
    intro s cb e w
    induction env s cb e w with
    | done => trivial
    | raise e => trivial
    | act c k ih => exact ⟨trivial, fun w err => ih w err⟩) d w0 l (fun _ _ => trivial)
  exact hP _ _ hs (h _ ⟨w0, h0, l', rfl⟩)

theorem acceptedOn_ticks (e : ℕ) (log : List Event) : Spec.acceptedOn e log = Spec.acceptedOn e (log.filter Spec.isTick) := by
  unfold Spec.acceptedOn
  induction log with
  | nil => rfl
  | cons ev log ih =>
    cases ev with
    | accepted e' t => simp only [List.filter_cons, Spec.isTick, if_true, List.filterMap_cons, ih]
    | notify s e' cb => simp only [List.filter_cons, Spec.isTick, List.filterMap_cons, ih]; rfl

/-- C77, market side: ticks are accepted in order, `last_tick` is the latest accepted one and `market_open` the calendar
at it, although ticks nest. -/
theorem C77_market {env : REnv} {d : ℕ} {w : World} (hw : RReachable env (d + 1) w) (e : ℕ) (ep : Epic)
    (hep : w.epics[e]? = some ep) :
    (Spec.acceptedOn e w.log).Pairwise (fun a b => a.dt.wall ≤ b.dt.wall) ∧
    ep.lastTick = ((Spec.acceptedOn e w.log).getLast?).getD Tick.epoch ∧
    (ep.marketOpen = true ↔ ∃ t, (Spec.acceptedOn e w.log).getLast? = some t ∧
      Spec.InSession ep.openTime ep.closeTime ep.tradeDays ep.holidays t.dt.wall) := by
  refine C77_invariant (P := fun w => w.epics[e]? = some ep →
    (Spec.acceptedOn e w.log).Pairwise (fun a b => a.dt.wall ≤ b.dt.wall) ∧
    ep.lastTick = ((Spec.acceptedOn e w.log).getLast?).getD Tick.epoch ∧
    (ep.marketOpen = true ↔ ∃ t, (Spec.acceptedOn e w.log).getLast? = some t ∧
      Spec.InSession ep.openTime ep.closeTime ep.tradeDays ep.holidays t.dt.wall)) ?_ ?_ hw hep
  · intro u v h
    rw [h.epics, acceptedOn_ticks e u.log, h.ticks, ← acceptedOn_ticks]
    exact id
  · intro u hu hep
    obtain ⟨h1, h2⟩ := C15_non_decreasing _ u hu e ep hep
    exact ⟨h1, h2, C17_market_open_always _ u hu e ep hep⟩

/-- C77, registration: as C34. -/
theorem C77_registered {env : REnv} {d : ℕ} {w : World} (hw : RReachable env (d + 1) w) (i : ℕ) (t : Trade)
    (ht : w.trades[i]? = some t) (hq : 0 < t.openQty) :
    (∃ ep, w.epics[t.epic]? = some ep ∧ ∀ (p : ℕ) (pr : Provider), w.providers[p]? = some pr →
      Spec.times i pr.trades = if p = ep.provider then 1 else 0) ∧
    ∀ (s : ℕ) (l : List ℕ), (w.strategies.map Strategy.trades)[s]? = some l →
      Spec.times i l = if t.strategy = some s then 1 else 0 := by
  refine C77_invariant (P := fun w => w.trades[i]? = some t →
    (∃ ep, w.epics[t.epic]? = some ep ∧ ∀ (p : ℕ) (pr : Provider), w.providers[p]? = some pr →
      Spec.times i pr.trades = if p = ep.provider then 1 else 0) ∧
    ∀ (s : ℕ) (l : List ℕ), (w.strategies.map Strategy.trades)[s]? = some l →
      Spec.times i l = if t.strategy = some s then 1 else 0) ?_ ?_ hw ht
  · intro u v h
    have hs : u.strategies.map Strategy.trades = v.strategies.map Strategy.trades := by
      have := congrArg (List.map (fun x : String × Dict ℕ × Bool × List ℕ => x.2.2.2)) h.strategies
      simp only [List.map_map] at this
      exact this
    rw [h.epics, h.providers, h.trades, hs]
    exact id
  · intro u hu ht
    obtain ⟨h1, h2, -⟩ := C34_registered_once hu i t ht hq
    refine ⟨h1, fun s l hl => ?_⟩
    rw [List.getElem?_map] at hl
    rcases hs : u.strategies[s]? with _ | st
    · rw [hs] at hl; cases hl
    · rw [hs] at hl
      injection hl with hl
      rw [← hl]; exact h2 s st hs

/-- C77, requests: as C76. -/
theorem C77_requests {env : REnv} {d : ℕ} {w : World} (hw : RReachable env (d + 1) w) :
    (∀ p, (Spec.requests w p).Nodup ∧ (Spec.requests w p).Pairwise Spec.Precedes) ∧
    (∀ p p' tg, tg ∈ Spec.requests w p → tg ∈ Spec.requests w p' → p = p') ∧
    ∀ (i : ℕ) t, w.trades[i]? = some t → 0 < t.openQty →
      ∀ p, Target.opening i ∈ Spec.requests w p ↔ Spec.broker w t.epic = some p := by
  refine C77_invariant (P := fun w => (∀ p, (Spec.requests w p).Nodup ∧ (Spec.requests w p).Pairwise Spec.Precedes) ∧
    (∀ p p' tg, tg ∈ Spec.requests w p → tg ∈ Spec.requests w p' → p = p') ∧
    ∀ (i : ℕ) t, w.trades[i]? = some t → 0 < t.openQty →
      ∀ p, Target.opening i ∈ Spec.requests w p ↔ Spec.broker w t.epic = some p) ?_ ?_ hw
  · intro u v h
    have h1 : ∀ p, Spec.requests u p = Spec.requests v p := fun p => by unfold Spec.requests; rw [h.providers]
    have h2 : ∀ e, Spec.broker u e = Spec.broker v e := fun e => by unfold Spec.broker; rw [h.epics]
    simp only [h1, h2, h.trades]
    exact id
  · intro u hu
    exact ⟨fun p => ⟨(C76_once hu).1 p, C76_order hu p⟩, (C76_once hu).2, (C76_openings hu).2⟩

/-- C77, quantities: if no quantity is negative, a trade is never closed for more than it was opened. -/
theorem C77_quantities {env : REnv} {d : ℕ} (hv : env.All Cmd.Valid) {w0 : World} (h0 : w0.Init) (l : List Cmd)
    (hl : ∀ c ∈ l, c.Valid) : ∀ t ∈ (w0.rrun env (d + 1) l).trades, (t.closes.map TradeClose.qty).sum ≤ t.openQty := by
  obtain ⟨l', -, h1, h2⟩ := C77_flat hv d w0 l hl
  intro t ht
  rw [h2.trades] at ht
  have hval : Spec.ValidRun Spec.idle (w0.runCmds Spec.idle l') := ⟨w0, h0, fun _ _ _ _ => trivial, l', h1, rfl⟩
  have := hval.nonNeg t ht
  unfold Trade.openedQty Trade.closedQty at this
  linarith

/-- C77, chronology: if nobody calls `trade.close` directly, a trade is opened, its closes follow, none later than the last
tick, although ticks nest. -/
theorem C77_chronology {env : REnv} {d : ℕ} (hv : env.All (fun c => ∀ i v dt q, c ≠ .op (.close i v dt q))) {w0 : World}
    (h0 : w0.Init) (l : List Cmd) (hl : ∀ i v dt q, Cmd.op (.close i v dt q) ∉ l) (t : Trade)
    (ht : t ∈ (w0.rrun env (d + 1) l).trades) (hopen : t.dt ≠ Tick.epoch.dt) (ep : Epic)
    (hep : (w0.rrun env (d + 1) l).epics[t.epic]? = some ep) :
    (t.dt.wall :: t.closes.map (fun c => c.dt.wall) ++ [ep.lastTick.dt.wall]).Pairwise (· ≤ ·) := by
  obtain ⟨l', -, h1, h2⟩ := C77_flat hv d w0 l (fun c hc i v dt q e => hl i v dt q (e ▸ hc))
  rw [h2.trades] at ht
  rw [h2.epics] at hep
  exact C59_chronology (env := Spec.idle) h0 l' ⟨fun _ _ _ _ => trivial, fun i v dt q hc => h1 _ hc i v dt q rfl⟩ t ht hopen ep hep

/-- C77, the dict of strategies: a tick during which a strategy is registered on the epic raises, so a tick that returns
leaves their number as it was. -/
theorem C77_growing_dict {env : REnv} {d : ℕ} {w : World} {e : ℕ} {k : Tick}
    (h : (World.rtick env (d + 1) w e k).2 = none) (ep ep' : Epic) (hep : w.epics[e]? = some ep)
    (hep' : (World.rtick env (d + 1) w e k).1.epics[e]? = some ep') : ep'.strategies.length = ep.strategies.length := by
  have loop : ∀ (tick : TickFn) (b : Bool) (n : ℕ) (l : List ℕ) (w : World),
      (rexecStrategies tick env e b n w l).2 = none → (rexecStrategies tick env e b n w l).1.nbStrategies e = n := by
    intro tick b n l
    induction l with
    | nil =>
      intro w h
      unfold rexecStrategies at h ⊢
      split_ifs at h ⊢ with hn
      exact hn
    | cons s rest ih =>
      intro w h
      unfold rexecStrategies at h ⊢
      split_ifs at h ⊢
      rcases andThen_cases (w.rexecStrategy tick env e s b) (fun w => rexecStrategies tick env e b n w rest) with
        ⟨-, h1⟩ | ⟨h1, h2⟩
      · rw [h1] at h ⊢; exact ih _ h
      · rw [h2] at h; exact absurd h h1
  unfold World.rtick at h hep'
  rw [hep] at h hep'
  simp only at h hep'
  split_ifs at h hep'
  rcases hr : (ep.accept { k with dt := k.dt.to ep.zone }).2 with _ | err
  · rw [hr] at h hep'
    simp only at h hep'
    have := loop _ _ _ _ _ h
    unfold World.nbStrategies at this
    rw [hep'] at this
    exact this
  · rw [hr] at h; cases h

/-! ## The callbacks of `World.lean` -/

theorem lift_run (tick : TickFn) (p : Prog) (w : World) : p.lift.run tick w = p.run w := by
  induction p generalizing w with
  | done => rfl
  | raise e => rfl
  | act o k ih => exact ih _ _ _

theorem lift_call (tick : TickFn) (env : Env) (w : World) (s : ℕ) (cb : Cb) (e : ℕ) :
    w.rcall tick env.lift s cb e = w.call env s cb e := lift_run tick _ _

theorem lift_callIf (tick : TickFn) (env : Env) (c : Bool) (w : World) (s : ℕ) (cb : Cb) (e : ℕ) :
    w.rcallIf tick env.lift c s cb e = w.callIf env c s cb e := by
  unfold World.rcallIf World.callIf
  rw [lift_call]

theorem lift_notifyAll (tick : TickFn) (env : Env) (w : World) (e s : ℕ) (b : Bool) :
    w.rnotifyAll tick env.lift e s b = w.notifyAll env e s b := by
  have h0 : ∀ w : World, w.callIf env false s .marketOpen e = (w, none) := fun w => by simp [World.callIf]
  have h1 : ∀ w : World, w.callIf env false s .marketClose e = (w, none) := fun w => by simp [World.callIf]
  unfold World.rnotifyAll World.notifyAll
  simp only [lift_callIf, lift_call]
  cases b
  · simp [h1, andThen]
  · simp [h0, andThen]

theorem lift_strategies (tick : TickFn) (env : Env) (e : ℕ) (b : Bool) (ep : Epic) (l : List ℕ) : ∀ w : World,
    w.epics[e]? = some ep →
    rexecStrategies tick env.lift e b ep.strategies.length w l = execStrategies env e b ep.lastTick.dt w l := by
  induction l with
  | nil =>
    intro w h
    unfold rexecStrategies execStrategies World.nbStrategies
    rw [h]; simp
  | cons s rest ih =>
    intro w h
    have hx : w.rexecStrategy tick env.lift e s b = w.execStrategy env e s b ep.lastTick.dt := by
      unfold World.rexecStrategy World.execStrategy
      rw [h]
      rcases w.strategies[s]? with _ | st
      · rfl
      · simp only [lift_notifyAll]
    have he := (execStrategy_log env w e s b ep.lastTick.dt).1
    unfold rexecStrategies execStrategies World.nbStrategies
    rw [h, hx]
    simp only [if_true]
    generalize w.execStrategy env e s b ep.lastTick.dt = r at he ⊢
    obtain ⟨w1, err⟩ := r
    cases err with
    | none => exact ih w1 (by rw [he]; exact h)
    | some err => rfl

theorem lift_exec (env : Env) (d : ℕ) (w : World) (c : Cmd) :
    w.rexec (World.rtick env.lift (d + 1)) c = w.exec env c := by
  have ht : ∀ (w : World) e k, World.rtick env.lift (d + 1) w e k = w.onNewTick env e k := by
    intro w e k
    unfold World.rtick World.onNewTick
    rcases hep : w.epics[e]? with _ | ep
    · rfl
    · simp only
      split_ifs
      · rfl
      · rcases (ep.accept { k with dt := k.dt.to ep.zone }).2 with _ | err
        · refine lift_strategies _ env e ep.marketOpen (ep.accept { k with dt := k.dt.to ep.zone }).1 _ _ ?_
          rw [(updateOpenTrades_rest _ _ _).1, List.getElem?_set_self (getElem?_lt hep)]
        · rfl
  cases c with
  | tick e k => exact ht w e k
  | op o => rfl
  | addFrameSet e ref fs => rfl
  | addStrategy e s => rfl
  | addIndicator e ref ind => rfl

/-- C77, callbacks that use the trading API only: the runs are those of the main model, whatever the recursion limit. -/
theorem C77_conservative (env : Env) (d : ℕ) (w : World) (l : List Cmd) :
    w.rrun env.lift (d + 1) l = w.runCmds env l := by
  induction l generalizing w with
  | nil => rfl
  | cons c l ih =>
    show (w.rexec (World.rtick env.lift (d + 1)) c).1.rrun env.lift (d + 1) l = (w.exec env c).1.runCmds env l
    rw [lift_exec]; exact ih _

end

/-! ## Concrete cases -/

namespace Demo

/-- At the opening of the market the first strategy buys, then feeds a tick after the close; the second one closes all
it has at every tick. -/
def feeder : REnv := fun s cb _ _ => match s, cb with
  | 0, .marketOpen => .act (.op (.openTrade 0 (some 1) (some .buy) 4)) fun _ _ =>
      .act (.tick 0 (tk 961 100 102)) fun _ _ => .done
  | 1, .everyTick => .act (.op (.closeOpened 1 (some 3))) fun _ _ => .done
  | _, _ => .done

/-- The first strategy registers the second one at the opening of the market. -/
def recruiter : REnv := fun s cb _ _ => match s, cb with
  | 0, .marketOpen => .act (.addStrategy 0 1) fun _ _ => .done
  | _, _ => .done

/-- The first strategy feeds the same tick again whenever it is called; it lets the exception pass. -/
def echo : REnv := fun s cb _ _ => match s, cb with
  | 0, .everyTick => .act (.tick 0 (tk 480 10 12)) fun _ err => match err with
    | none => .done
    | some e => .raise e
  | _, _ => .done

def two : List Cmd := [.addStrategy 0 0, .addStrategy 0 1, .tick 0 (tk 480 10 12)]

end Demo

/-- The inner tick is complete before the outer one goes on: the second strategy hears of the close only, and of the
last tick twice. -/
example : letI := Arith.exact
    (Demo.world.rrun Demo.feeder 2 Demo.two).log =
      [.accepted 0 (Demo.tk 480 10 12), .notify 0 0 .marketOpen,
       .accepted 0 (Demo.tk 961 100 102), .notify 0 0 .marketClose, .notify 0 0 .everyTick,
       .notify 1 0 .marketClose, .notify 1 0 .everyTick,
       .notify 0 0 .everyTick, .notify 1 0 .everyTick] := by
  letI := Arith.exact
  decide +kernel

/-- C77_flat: the flat program of that run. -/
example : letI := Arith.exact
    let w := Demo.world.rrun Demo.feeder 2 Demo.two
    let v := Demo.world.runCmds Spec.idle (Demo.two ++ [.op (.openTrade 0 (some 1) (some .buy) 4),
      .tick 0 (Demo.tk 961 100 102), .op (.closeOpened 1 (some 3)), .op (.closeOpened 1 (some 3))])
    w.trades.map Trade.result = [352] ∧ v.trades.map Trade.result = [352] ∧
      w.trades.map (fun t => t.closes.map TradeClose.qty) = [[3, 1]] ∧
      v.trades.map (fun t => t.closes.map TradeClose.qty) = [[3, 1]] := by
  letI := Arith.exact
  decide +kernel

example : Demo.feeder.All Cmd.Valid := by
  intro s cb e w
  unfold Demo.feeder
  split <;> simp [RProg.All, Cmd.Valid, Op.Valid, QOk]

example : letI := Arith.exact
    RReachable Demo.feeder 2 (Demo.world.rrun Demo.feeder 2 Demo.two) := ⟨_, Demo.world_init, _, rfl⟩

/-- C77_growing_dict: registering a strategy from a callback of the epic raises RuntimeError at the end of the iteration;
the strategy is registered. -/
example : letI := Arith.exact
    let w := Demo.world.rrun Demo.recruiter 1 [.addStrategy 0 0]
    let r := World.rtick Demo.recruiter 1 w 0 (Demo.tk 480 10 12)
    r.2 = some .runtime ∧ r.1.nbStrategies 0 = 2 ∧
      (World.rtick Demo.recruiter 1 w 0 (Demo.tk 479 10 12)).2 = none := by
  letI := Arith.exact
  decide +kernel

/-- Endless recursion: as many ticks are accepted as may nest, then the exception. -/
example : letI := Arith.exact
    let w := Demo.world.rrun Demo.echo 5 [.addStrategy 0 0]
    let r := World.rtick Demo.echo 5 w 0 (Demo.tk 480 10 12)
    r.2 = some .recursion ∧ (Spec.acceptedOn 0 r.1.log).length = 5 := by
  letI := Arith.exact
  decide +kernel

/-- C77_conservative. -/
example : letI := Arith.exact
    (Demo.world.rrun Demo.quiet.lift 1 Demo.script).log.length = 25 := by
  letI := Arith.exact
  decide +kernel

/-- C77, what nesting breaks: a strategy that is neither paused nor stopped may hear that the market closed without
having heard that it opened (C19 excludes this when callbacks only trade and do not raise). -/
theorem C77_callbacks_false : ∃ (A : Arith) (env : REnv) (w : World) (s e : ℕ), @RReachable A env 2 w ∧
    (∀ st ∈ w.strategies, st.pausedUntil = none ∧ st.stopped = false) ∧
    Event.notify s e .marketClose ∈ w.log ∧ Event.notify s e .marketOpen ∉ w.log := by
  letI := Arith.exact
  refine ⟨Arith.exact, Demo.feeder, Demo.world.rrun Demo.feeder 2 Demo.two, 1, 0, ⟨_, Demo.world_init, _, rfl⟩, ?_⟩
  decide +kernel

end Estrade
