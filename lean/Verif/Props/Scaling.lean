import Verif.Lemmas.TradeLemmas
import Verif.Demo
import Mathlib.Data.List.Forall2

/-!
# C73: position size is only a scale
(estrade/trade.py, estrade/trade_provider.py, estrade/strategy.py)

Two runs of a whole program, the second with every quantity multiplied by the same positive integer.
-/

set_option linter.style.haveILetI false
set_option linter.unusedSectionVars false
set_option autoImplicit false

namespace Estrade

/-- Spec: a close of `k` times the quantity. -/
def Spec.scaleClose (k : ℤ) (c : TradeClose) : TradeClose := { c with qty := k * c.qty }

/-- Spec: the same trade, `k` times as big: quantities and money results. -/
def Spec.scaleTrade (k : ℤ) (t : Trade) : Trade :=
  { t with
    openQty := k * t.openQty
    closes := t.closes.map (Spec.scaleClose k)
    maxRes := k * t.maxRes
    minRes := k * t.minRes }

/-- Spec: the same world, with all trades `k` times as big. -/
def Spec.scaleWorld (k : ℤ) (w : World) : World := { w with trades := w.trades.map (Spec.scaleTrade k) }

/-- Spec: the same operation with `k` times the quantity. -/
def Spec.scaleOp (k : ℤ) : Op → Op
  | .openTrade e s d q => .openTrade e s d (k * q)
  | .closeTrade e t q => .closeTrade e t (q.map (k * ·))
  | .closeOpened s q => .closeOpened s (q.map (k * ·))
  | .update t v => .update t v
  | .close t v dt q => .close t v dt (q.map (k * ·))
  | .pause s dt => .pause s dt
  | .stop s b => .stop s b
  | .thread p i st => .thread p i st

/-- Spec: the same command with `k` times the quantity. -/
def Spec.scaleCmd (k : ℤ) : Cmd → Cmd
  | .op o => .op (Spec.scaleOp k o)
  | c => c

/-- Spec: user code that takes the same decisions with `k` times the quantities, in the scaled world. -/
inductive Spec.ScaledProg (k : ℤ) : Prog → Prog → Prop
  | done : Spec.ScaledProg k .done .done
  | raise (e : PyErr) : Spec.ScaledProg k (.raise e) (.raise e)
  | act (o : Op) (f f' : World → Option PyErr → Prog)
      (h : ∀ w r, Spec.ScaledProg k (f w r) (f' (Spec.scaleWorld k w) r)) :
      Spec.ScaledProg k (.act o f) (.act (Spec.scaleOp k o) f')

/-- Spec: callbacks that take the same decisions with `k` times the quantities. -/
def Spec.ScaledEnv (k : ℤ) (env env' : Env) : Prop :=
  ∀ s cb e w, Spec.ScaledProg k (env s cb e w) (env' s cb e (Spec.scaleWorld k w))

section
variable [Arith]

/-! ## Trades -/

section
variable {k : ℤ} (hk : 0 < k) (hE : Exact)

theorem scale_closedQty (t : Trade) : (Spec.scaleTrade k t).closedQty = k * t.closedQty := by
  unfold Trade.closedQty Spec.scaleTrade
  simp only
  induction t.closes with
  | nil => simp
  | cons c l ih =>
    simp only [List.map_cons, List.sum_cons] at ih ⊢
    rw [ih]
    unfold Spec.scaleClose
    ring

theorem scale_openedQty (t : Trade) : (Spec.scaleTrade k t).openedQty = k * t.openedQty := by
  unfold Trade.openedQty
  rw [scale_closedQty]
  unfold Spec.scaleTrade
  ring

include hk in
theorem scale_closed (t : Trade) : (Spec.scaleTrade k t).closed = t.closed := by
  unfold Trade.closed
  rw [scale_openedQty]
  congr 1
  exact propext (by simp [hk.ne'])

include hE in
theorem scale_closeResult (d : Dir) (o : ℚ) (c : TradeClose) :
    closeResult d o (Spec.scaleClose k c) = k * closeResult d o c := by
  have ha : closeResultAvg d o (Spec.scaleClose k c) = closeResultAvg d o c := rfl
  have hc : IsCent (closeResultAvg d o c) := by
    unfold closeResultAvg
    cases d
    · simp only [rnd_exact hE]; exact isCent_cent _
    · simp only [rnd_exact hE]; exact isCent_cent _
  unfold closeResult
  rw [ha, rnd_exact hE, rnd_exact hE, fmul_exact hE, fmul_exact hE, (hc.mul_int _).cent, (hc.mul_int _).cent]
  unfold Spec.scaleClose
  push_cast
  ring

include hE in
theorem scale_closedResult (t : Trade) : (Spec.scaleTrade k t).closedResult = k * t.closedResult := by
  unfold Trade.closedResult Spec.scaleTrade
  simp only
  rw [fsum_exact hE, fsum_exact hE]
  induction t.closes with
  | nil => simp
  | cons c l ih =>
    simp only [List.map_cons, List.sum_cons] at ih ⊢
    rw [ih, scale_closeResult hE]
    ring

include hk in
theorem scale_openedResultAvg (t : Trade) : (Spec.scaleTrade k t).openedResultAvg = t.openedResultAvg := by
  unfold Trade.openedResultAvg
  rw [scale_closed hk]
  rfl

include hk hE in
theorem scale_result (t : Trade) : (Spec.scaleTrade k t).result = k * t.result := by
  unfold Trade.result Trade.openedResult
  rw [scale_closedResult hE, scale_openedResultAvg hk, scale_openedQty]
  rw [fadd_exact hE, fadd_exact hE, fmul_exact hE, fmul_exact hE]
  push_cast
  ring

include hk hE in
theorem scale_new (d : Dir) (q : ℤ) (o : ℚ) (dt : DT) (e : ℕ) (c : Option ℚ) (s : Option ℕ) (st : Status) :
    Trade.new d (k * q) o dt e c s st = Spec.scaleTrade k (Trade.new d q o dt e c s st) := by
  have h := fun cv => scale_result hk hE ⟨e, s, d, q, [], o, cv, 0, 0, dt, st⟩
  unfold Trade.new
  simp only
  have h' := fun cv => h cv
  unfold Spec.scaleTrade at h' ⊢
  simp only [List.map_nil, mul_zero] at h' ⊢
  rw [h']

include hk hE in
theorem scale_openFromTick (tick : Tick) (e : ℕ) (d : Option Dir) (q : ℤ) (s : Option ℕ) :
    Trade.openFromTick tick e d (k * q) s = (Trade.openFromTick tick e d q s).map (Spec.scaleTrade k) := by
  rcases d with _ | d
  · rfl
  · cases d <;> simp only [Trade.openFromTick, scale_new hk hE] <;> rfl

include hk hE in
theorem scale_updateMinMax (t : Trade) :
    (Spec.scaleTrade k t).updateMinMax = Spec.scaleTrade k t.updateMinMax := by
  have hk' : (0 : ℚ) < k := by exact_mod_cast hk
  have h1 : (Spec.scaleTrade k t).maxRes < (Spec.scaleTrade k t).result ↔ t.maxRes < t.result := by
    rw [scale_result hk hE]
    exact mul_lt_mul_iff_right₀ hk'
  unfold Trade.updateMinMax
  simp only [h1]
  have h3 : ∀ u : Trade, (Spec.scaleTrade k u).result < (Spec.scaleTrade k u).minRes ↔ u.result < u.minRes := by
    intro u
    rw [scale_result hk hE]
    exact mul_lt_mul_iff_right₀ hk'
  have h4 : (if t.maxRes < t.result then { Spec.scaleTrade k t with maxRes := (Spec.scaleTrade k t).result }
      else Spec.scaleTrade k t) =
      Spec.scaleTrade k (if t.maxRes < t.result then { t with maxRes := t.result } else t) := by
    split_ifs
    · rw [scale_result hk hE]; rfl
    · rfl
  rw [h4]
  simp only [h3]
  generalize (if t.maxRes < t.result then { t with maxRes := t.result } else t) = u
  split_ifs
  · rw [scale_result hk hE]; rfl
  · rfl

include hk hE in
theorem scale_update (t : Trade) (v : ℚ) : (Spec.scaleTrade k t).update v = Spec.scaleTrade k (t.update v) := by
  unfold Trade.update
  rw [scale_closed hk]
  split_ifs
  · rfl
  · exact scale_updateMinMax hk hE { t with curClose := v }

include hk hE in
theorem scale_updateFromTick (t : Trade) (x : Tick) :
    (Spec.scaleTrade k t).updateFromTick x = Spec.scaleTrade k (t.updateFromTick x) := scale_update hk hE t _

include hk in
theorem scale_closeQty (t : Trade) (q : Option ℤ) :
    (Spec.scaleTrade k t).closeQty (q.map (k * ·)) = k * t.closeQty q := by
  rcases q with _ | n
  · rw [Option.map_none, Trade.closeQty_none, Trade.closeQty_none, scale_openedQty]
  · rw [Option.map_some]
    by_cases hn : n = 0
    · subst hn
      rw [mul_zero, Trade.closeQty_zero, Trade.closeQty_zero, scale_openedQty]
    · rw [Trade.closeQty_of_ne _ hn, Trade.closeQty_of_ne _ (mul_ne_zero hk.ne' hn), scale_openedQty]
      exact (mul_min_of_nonneg _ _ hk.le).symm

include hk in
theorem scale_close (t : Trade) (v : ℚ) (dt : DT) (q : Option ℤ) :
    (Spec.scaleTrade k t).close v dt (q.map (k * ·)) = Spec.scaleTrade k (t.close v dt q) := by
  unfold Trade.close
  rw [scale_closeQty hk]
  unfold Spec.scaleTrade
  simp only [List.map_append]
  rfl

include hk hE in
theorem scale_closeFromTick (t : Trade) (x : Tick) (q : Option ℤ) :
    (Spec.scaleTrade k t).closeFromTick x (q.map (k * ·)) = Spec.scaleTrade k (t.closeFromTick x q) := by
  unfold Trade.closeFromTick
  simp only
  rw [scale_updateFromTick hk hE]
  exact scale_close hk (t.updateFromTick x) _ _ _

/-! ## Worlds -/

theorem scale_getElem? (w : World) (i : ℕ) :
    (Spec.scaleWorld k w).trades[i]? = (w.trades[i]?).map (Spec.scaleTrade k) := by
  unfold Spec.scaleWorld
  simp

theorem map_modify_comm {α β : Type} (f : α → β) (g : α → α) (g' : β → β) (h : ∀ x, g' (f x) = f (g x)) (l : List α)
    (i : ℕ) : (l.map f).modify i g' = (l.modify i g).map f := by
  apply List.ext_getElem?
  intro j
  simp only [List.getElem?_modify, List.getElem?_map]
  rcases l[j]? with _ | x
  · rfl
  · simp only [Option.map_some]
    split_ifs <;> simp [h]

theorem scale_modify (w : World) (i : ℕ) (g g' : Trade → Trade)
    (h : ∀ t, g' (Spec.scaleTrade k t) = Spec.scaleTrade k (g t)) :
    { Spec.scaleWorld k w with trades := (Spec.scaleWorld k w).trades.modify i g' } =
      Spec.scaleWorld k { w with trades := w.trades.modify i g } := by
  unfold Spec.scaleWorld
  simp only
  rw [map_modify_comm _ g g' h]

include hk in
theorem scale_openedTrades (w : World) (p : Provider) : (Spec.scaleWorld k w).openedTrades p = w.openedTrades p := by
  unfold World.openedTrades
  refine List.filter_congr fun i _ => ?_
  rw [scale_getElem?]
  rcases w.trades[i]? with _ | t
  · rfl
  · simp only [Option.map_some]
    rw [scale_closed hk]

include hk hE in
theorem scale_closeOn (w : World) (p i : ℕ) (q : Option ℤ) :
    (Spec.scaleWorld k w).closeOn p i (q.map (k * ·)) = (w.closeOn p i q).map (Spec.scaleWorld k) := by
  unfold World.closeOn
  rw [scale_getElem?]
  rcases w.trades[i]? with _ | t
  · rfl
  · simp only [Option.map_some]
    have he : (Spec.scaleWorld k w).epics[(Spec.scaleTrade k t).epic]? = w.epics[t.epic]? := rfl
    rw [he]
    rcases w.epics[t.epic]? with _ | e
    · rfl
    · simp only [Except.map]
      rw [scale_closeFromTick hk hE]
      have hl : (Spec.scaleTrade k t).closes.length = t.closes.length := by
        unfold Spec.scaleTrade; simp
      rw [hl]
      unfold World.setTrade World.modProvider Spec.scaleWorld
      simp

include hk hE in
theorem scale_netLoop (p : ℕ) (l : List ℕ) : ∀ (w : World) (new : Trade),
    netLoop p (Spec.scaleWorld k w) (Spec.scaleTrade k new) l =
      (netLoop p w new l).map (fun r => (Spec.scaleWorld k r.1, Spec.scaleTrade k r.2)) := by
  induction l with
  | nil => intro w new; rfl
  | cons i rest ih =>
    intro w new
    unfold netLoop
    rw [scale_getElem?]
    rcases w.trades[i]? with _ | t
    · rfl
    · simp only [Option.map_some]
      have h1 : ((Spec.scaleTrade k t).dir = (Spec.scaleTrade k new).dir.opposite) = (t.dir = new.dir.opposite) := rfl
      have h2 : ((Spec.scaleTrade k t).strategy ≠ (Spec.scaleTrade k new).strategy) = (t.strategy ≠ new.strategy) := rfl
      have h3 : min (Spec.scaleTrade k t).openedQty (Spec.scaleTrade k new).openQty = k * min t.openedQty new.openQty := by
        rw [scale_openedQty]
        exact (mul_min_of_nonneg _ _ hk.le).symm
      simp only [h1, h2, h3]
      split_ifs
      · exact ih w new
      · have h4 := scale_closeOn hk hE w p i (some (min t.openedQty new.openQty))
        rw [Option.map_some] at h4
        rw [h4]
        rcases w.closeOn p i (some (min t.openedQty new.openQty)) with err | w'
        · rfl
        · have h5 : ({ Spec.scaleTrade k new with
              openQty := (Spec.scaleTrade k new).openQty - k * min t.openedQty new.openQty } : Trade) =
              Spec.scaleTrade k { new with openQty := new.openQty - min t.openedQty new.openQty } := by
            unfold Spec.scaleTrade
            simp only
            congr 1
            ring
          have h6 := ih w' { new with openQty := new.openQty - min t.openedQty new.openQty }
          rw [← h5] at h6
          exact h6
      · exact ih w new

theorem scale_register (w : World) (p i : ℕ) (s : Option ℕ) :
    (Spec.scaleWorld k w).register p i s = Spec.scaleWorld k (w.register p i s) := by
  rcases s with _ | s <;> rfl

include hk hE in
theorem scale_providerOpen (w : World) (p : ℕ) (new : Trade) :
    (Spec.scaleWorld k w).providerOpen p (Spec.scaleTrade k new) = (w.providerOpen p new).map (Spec.scaleWorld k) := by
  unfold World.providerOpen
  have hp : (Spec.scaleWorld k w).providers = w.providers := rfl
  rw [hp]
  rcases w.providers[p]? with _ | pr
  · rfl
  · simp only
    have happ : ∀ (v : World) (t : Trade), ({ Spec.scaleWorld k v with
        trades := (Spec.scaleWorld k v).trades ++ [Spec.scaleTrade k t] } : World) =
        Spec.scaleWorld k { v with trades := v.trades ++ [t] } := by
      intro v t
      unfold Spec.scaleWorld
      simp
    have hlen : ∀ v : World, (Spec.scaleWorld k v).trades.length = v.trades.length := by
      intro v
      unfold Spec.scaleWorld
      simp
    have hs : (Spec.scaleTrade k new).strategy = new.strategy := rfl
    rcases pr.kind
    · simp only
      rw [scale_openedTrades hk, scale_netLoop hk hE]
      rcases netLoop p w new (w.openedTrades pr) with err | r
      · rfl
      · simp only [Except.map, bind, Except.bind]
        rw [happ, hlen, hs]
        have hq : (Spec.scaleTrade k r.2).openQty ≤ 0 ↔ r.2.openQty ≤ 0 := by
          change k * r.2.openQty ≤ 0 ↔ _
          constructor
          · intro h; by_contra hc; push Not at hc; have := mul_pos hk hc; omega
          · intro h; exact mul_nonpos_of_nonneg_of_nonpos hk.le h
        simp only [hq]
        split_ifs
        · rfl
        · rw [scale_register]
    · simp only [Except.map]
      refine congrArg Except.ok ?_
      rw [← scale_register, ← happ, hlen, hs]
      rfl

include hk hE in
theorem scale_closeTrade (w : World) (e t : ℕ) (q : Option ℤ) :
    (Spec.scaleWorld k w).closeTrade e t (q.map (k * ·)) = (w.closeTrade e t q).map (Spec.scaleWorld k) := by
  unfold World.closeTrade
  have he : (Spec.scaleWorld k w).epics = w.epics := rfl
  rw [he]
  rcases w.epics[e]? with _ | ep
  · rfl
  · exact scale_closeOn hk hE w _ _ _

include hk hE in
theorem scale_closeOpenedLoop (q : Option ℤ) (l : List ℕ) : ∀ w : World,
    closeOpenedLoop (q.map (k * ·)) (Spec.scaleWorld k w) l = (closeOpenedLoop q w l).map (Spec.scaleWorld k) := by
  induction l with
  | nil => intro w; rfl
  | cons i rest ih =>
    intro w
    unfold closeOpenedLoop
    rw [scale_getElem?]
    rcases w.trades[i]? with _ | t
    · rfl
    · simp only [Option.map_some]
      rw [scale_closed hk]
      have he : (Spec.scaleTrade k t).epic = t.epic := rfl
      rw [he, scale_closeTrade hk hE]
      split_ifs
      · exact ih w
      · rcases w.closeTrade t.epic i q with err | w'
        · rfl
        · exact ih w'

/-- Spec: the outcome of an operation in the scaled world. -/
def Spec.scaleOut (k : ℤ) (r : World × Option PyErr) : World × Option PyErr := (Spec.scaleWorld k r.1, r.2)

theorem scale_orKeep (w : World) (r : Except PyErr World) :
    orKeep (Spec.scaleWorld k w) (r.map (Spec.scaleWorld k)) = Spec.scaleOut k (orKeep w r) := by
  rcases r with e | w' <;> rfl

theorem scale_setStatus (w : World) (tg : Target) (st : Status) :
    (Spec.scaleWorld k w).setStatus tg st = Spec.scaleWorld k (w.setStatus tg st) := by
  unfold World.setStatus
  rcases tg with i | ⟨i, j⟩
  · exact scale_modify w i _ _ (fun t => rfl)
  · refine scale_modify w i _ _ (fun t => ?_)
    unfold Spec.scaleTrade
    simp only
    rw [map_modify_comm (Spec.scaleClose k) (fun c => { c with status := st }) _ (fun c => rfl)]

theorem scale_runThread (w : World) (p i : ℕ) (st : Option Status) :
    (Spec.scaleWorld k w).runThread p i st = Spec.scaleOut k (w.runThread p i st) := by
  unfold World.runThread
  have hp : (Spec.scaleWorld k w).providers = w.providers := rfl
  rw [hp]
  rcases w.providers[p]? with _ | pr
  · rfl
  · simp only
    rcases pr.threads[i]? with _ | th
    · rfl
    · simp only
      split_ifs
      · rcases pr.kind
        · simp only [Spec.scaleOut]
          rw [← scale_setStatus]
          rfl
        · rcases st with _ | st
          · rfl
          · simp only [Spec.scaleOut]
            rw [← scale_setStatus]
            rfl
      · rfl

include hk hE in
theorem scale_step (w : World) (o : Op) :
    (Spec.scaleWorld k w).step (Spec.scaleOp k o) = Spec.scaleOut k (w.step o) := by
  have he : (Spec.scaleWorld k w).epics = w.epics := rfl
  have hs : (Spec.scaleWorld k w).strategies = w.strategies := rfl
  rcases o with ⟨e, s, d, q⟩ | ⟨e, t, q⟩ | ⟨s, q⟩ | ⟨t, v⟩ | ⟨t, v, dt, q⟩ | ⟨s, dt⟩ | ⟨s, b⟩ | ⟨p, i, st⟩
  · simp only [Spec.scaleOp, World.step]
    rw [he, hs]
    rcases w.epics[e]? with _ | ep
    · rfl
    · simp only
      split_ifs
      · rw [scale_openFromTick hk hE, ← scale_orKeep]
        congr 1
        rcases Trade.openFromTick ep.lastTick e d q s with err | t
        · rfl
        · exact scale_providerOpen hk hE w ep.provider t
      · rfl
  · simp only [Spec.scaleOp, World.step]
    rw [scale_closeTrade hk hE, scale_orKeep]
  · simp only [Spec.scaleOp, World.step]
    rw [hs]
    rcases w.strategies[s]? with _ | st
    · rfl
    · simp only
      rw [scale_closeOpenedLoop hk hE, scale_orKeep]
  · simp only [Spec.scaleOp, World.step, Spec.scaleOut]
    rw [scale_modify w t (fun x => x.update v) _ (fun x => scale_update hk hE x v)]
  · simp only [Spec.scaleOp, World.step, Spec.scaleOut]
    rw [scale_modify w t (fun x => x.close v dt q) _ (fun x => scale_close hk x v dt q)]
  · rfl
  · rfl
  · exact scale_runThread w p i st

include hk hE in
theorem scale_run {p p' : Prog} (h : Spec.ScaledProg k p p') : ∀ w : World,
    p'.run (Spec.scaleWorld k w) = Spec.scaleOut k (p.run w) := by
  induction h with
  | done => intro w; rfl
  | raise e => intro w; rfl
  | act o f f' _ ih =>
    intro w
    simp only [Prog.run]
    rw [scale_step hk hE]
    exact ih _ _ _

include hk hE in
theorem scale_updateOpenTrades (w : World) (p : ℕ) (x : Tick) :
    (Spec.scaleWorld k w).updateOpenTrades p x = Spec.scaleWorld k (w.updateOpenTrades p x) := by
  unfold World.updateOpenTrades
  have hp : (Spec.scaleWorld k w).providers = w.providers := rfl
  simp only [hp]
  rcases w.providers[p]? with _ | pr
  · rfl
  · simp only
    rw [scale_openedTrades hk]
    generalize w.openedTrades pr = l
    induction l generalizing w with
    | nil => rfl
    | cons i rest ih =>
      simp only [List.foldl_cons]
      rw [scale_modify w i (fun t => t.updateFromTick x) _ (fun t => scale_updateFromTick hk hE t x)]
      exact ih _ rfl

theorem scale_andThen (r : World × Option PyErr) (f f' : World → World × Option PyErr)
    (h : ∀ w, f' (Spec.scaleWorld k w) = Spec.scaleOut k (f w)) :
    andThen (Spec.scaleOut k r) f' = Spec.scaleOut k (andThen r f) := by
  rcases r with ⟨w, _ | e⟩
  · exact h w
  · rfl

section
variable {env env' : Env} (henv : Spec.ScaledEnv k env env')
include hk hE henv

theorem scale_call (w : World) (s : ℕ) (cb : Cb) (e : ℕ) :
    (Spec.scaleWorld k w).call env' s cb e = Spec.scaleOut k (w.call env s cb e) :=
  scale_run hk hE (henv s cb e { w with log := w.log ++ [.notify s e cb] }) { w with log := w.log ++ [.notify s e cb] }

theorem scale_callIf (c : Bool) (w : World) (s : ℕ) (cb : Cb) (e : ℕ) :
    (Spec.scaleWorld k w).callIf env' c s cb e = Spec.scaleOut k (w.callIf env c s cb e) := by
  unfold World.callIf
  split_ifs
  · exact scale_call hk hE henv w s cb e
  · rfl

theorem scale_notifyAll (w : World) (e s : ℕ) (b : Bool) :
    (Spec.scaleWorld k w).notifyAll env' e s b = Spec.scaleOut k (w.notifyAll env e s b) := by
  have hm : ∀ v : World, (Spec.scaleWorld k v).marketOpen e = v.marketOpen e := fun _ => rfl
  unfold World.notifyAll
  rw [hm, scale_callIf hk hE henv]
  refine scale_andThen _ _ _ fun v => ?_
  rw [hm, scale_callIf hk hE henv]
  refine scale_andThen _ _ _ fun v => ?_
  rw [hm, scale_callIf hk hE henv]
  exact scale_andThen _ _ _ fun v => scale_call hk hE henv v s _ e

theorem scale_execStrategies (e : ℕ) (b : Bool) (dt : DT) (l : List ℕ) : ∀ w : World,
    execStrategies env' e b dt (Spec.scaleWorld k w) l = Spec.scaleOut k (execStrategies env e b dt w l) := by
  induction l with
  | nil => intro w; rfl
  | cons s rest ih =>
    intro w
    unfold execStrategies
    have h : (Spec.scaleWorld k w).execStrategy env' e s b dt = Spec.scaleOut k (w.execStrategy env e s b dt) := by
      unfold World.execStrategy
      have hs : (Spec.scaleWorld k w).strategies = w.strategies := rfl
      rw [hs]
      rcases w.strategies[s]? with _ | st
      · rfl
      · simp only
        split_ifs
        · exact scale_notifyAll hk hE henv { w with strategies := w.strategies.set s (st.isActive dt).2 } e s b
        · rfl
    rw [h]
    exact scale_andThen _ _ _ ih

theorem scale_onNewTick (w : World) (e : ℕ) (x : Tick) :
    (Spec.scaleWorld k w).onNewTick env' e x = Spec.scaleOut k (w.onNewTick env e x) := by
  unfold World.onNewTick
  have he : (Spec.scaleWorld k w).epics = w.epics := rfl
  rw [he]
  rcases w.epics[e]? with _ | ep
  · rfl
  · simp only
    split_ifs
    · rfl
    · rcases (ep.accept { x with dt := x.dt.to ep.zone }).2 with _ | err
      · simp only
        rw [← scale_execStrategies hk hE henv, ← scale_updateOpenTrades hk hE]
        rfl
      · rfl

theorem scale_exec (w : World) (c : Cmd) :
    (Spec.scaleWorld k w).exec env' (Spec.scaleCmd k c) = Spec.scaleOut k (w.exec env c) := by
  have he : (Spec.scaleWorld k w).epics = w.epics := rfl
  have hs : (Spec.scaleWorld k w).strategies = w.strategies := rfl
  rcases c with ⟨e, x⟩ | o | ⟨e, ref, fs⟩ | ⟨e, s⟩ | ⟨e, ref, ind⟩
  · exact scale_onNewTick hk hE henv w e x
  · exact scale_step hk hE w o
  · simp only [Spec.scaleCmd, World.exec]
    unfold World.addFrameSet
    rw [he]
    rcases w.epics[e]? with _ | ep
    · rfl
    · simp only
      rcases ep.addFrameSet ref fs with err | ep' <;> rfl
  · simp only [Spec.scaleCmd, World.exec]
    unfold World.addStrategy
    rw [he, hs]
    rcases w.epics[e]? with _ | ep <;> rcases w.strategies[s]? with _ | st
    · rfl
    · rfl
    · rfl
    · simp only
      rcases ep.strategies.get? st.ref with _ | _ <;> rfl
  · simp only [Spec.scaleCmd, World.exec]
    unfold World.addIndicator
    rw [he]
    rcases w.epics[e]? with _ | ep
    · rfl
    · simp only
      rcases ep.frameSets.get? ref with _ | fs
      · rfl
      · rfl

end

end

/-! ## The theorems -/

/-- C73: multiply every quantity of a program (commands and callbacks) by `k > 0`: after any run, epics, frames,
indicators, strategies, providers, threads and notifications are the same, and the trades are the same but `k` times
as big. -/
theorem C73_scaling_partial (hE : Exact) {k : ℤ} (hk : 0 < k) {env env' : Env} (henv : Spec.ScaledEnv k env env') (w : World)
    (l : List Cmd) :
    (Spec.scaleWorld k w).runCmds env' (l.map (Spec.scaleCmd k)) = Spec.scaleWorld k (w.runCmds env l) := by
  unfold World.runCmds
  induction l generalizing w with
  | nil => rfl
  | cons c l ih =>
    simp only [List.map_cons, List.foldl_cons]
    rw [scale_exec hk hE henv]
    exact ih _

/-- C73, exceptions: the next command raises in one program exactly when it raises in the other, and the same. -/
theorem C73_same_exceptions_partial (hE : Exact) {k : ℤ} (hk : 0 < k) {env env' : Env} (henv : Spec.ScaledEnv k env env')
    (w : World) (l : List Cmd) (c : Cmd) :
    (((Spec.scaleWorld k w).runCmds env' (l.map (Spec.scaleCmd k))).exec env' (Spec.scaleCmd k c)).2 =
      ((w.runCmds env l).exec env c).2 := by
  rw [C73_scaling_partial hE hk henv, scale_exec hk hE henv]
  rfl

/-- C73, what the user sees of each trade: from a start of the program, trade `i` of the scaled run has `k` times the
quantities and results, the same averages per unit, the same prices. -/
theorem C73_trades_partial (hE : Exact) {k : ℤ} (hk : 0 < k) {env env' : Env} (henv : Spec.ScaledEnv k env env') (w : World)
    (hw : w.Init) (l : List Cmd) (i : ℕ) (t : Trade) (ht : (w.runCmds env l).trades[i]? = some t) :
    ∃ t', (w.runCmds env' (l.map (Spec.scaleCmd k))).trades[i]? = some t' ∧ t'.dir = t.dir ∧ t'.closed = t.closed ∧
      t'.openedQty = k * t.openedQty ∧ t'.closedQty = k * t.closedQty ∧ t'.result = k * t.result ∧
      t'.closedResult = k * t.closedResult ∧ t'.maxRes = k * t.maxRes ∧ t'.minRes = k * t.minRes ∧
      t'.openedResultAvg = t.openedResultAvg ∧ t'.openValue = t.openValue ∧ t'.curClose = t.curClose := by
  have h0 : Spec.scaleWorld k w = w := by
    unfold Spec.scaleWorld
    rw [hw.trades]
    have := hw.trades
    rcases w with ⟨_, _, _, tr, _⟩
    simp only at this
    subst this
    rfl
  have h := C73_scaling_partial hE hk henv w l
  rw [h0] at h
  refine ⟨Spec.scaleTrade k t, by rw [h, scale_getElem?, ht]; rfl, rfl, scale_closed hk t, scale_openedQty t,
    scale_closedQty t, scale_result hk hE t, scale_closedResult hE t, rfl, rfl, scale_openedResultAvg hk t, rfl, rfl⟩

/-- Spec: the trades of strategy `s`. -/
def Spec.tradesOf (w : World) (s : ℕ) : List Trade := match w.strategies[s]? with
  | none => []
  | some st => st.trades.filterMap (fun i => w.trades[i]?)

theorem isCent_openedResultAvg (hE : Exact) (t : Trade) : IsCent t.openedResultAvg := by
  unfold Trade.openedResultAvg
  split_ifs
  · exact isCent_zero
  · rcases t.dir
    · simp only [rnd_exact hE]; exact isCent_cent _
    · simp only [rnd_exact hE]; exact isCent_cent _

theorem isCent_sum {l : List ℚ} (h : ∀ x ∈ l, IsCent x) : IsCent l.sum := by
  induction l with
  | nil => exact isCent_zero
  | cons x l ih =>
    rw [List.sum_cons]
    exact (h x (by simp)).add (ih (fun y hy => h y (by simp [hy])))

theorem isCent_result (hE : Exact) (t : Trade) : IsCent t.result := by
  unfold Trade.result Trade.openedResult Trade.closedResult
  rw [fadd_exact hE, fmul_exact hE, fsum_exact hE]
  refine ((isCent_openedResultAvg hE t).mul_int _).add (isCent_sum ?_)
  intro x hx
  obtain ⟨c, _, rfl⟩ := List.mem_map.mp hx
  unfold closeResult
  rw [rnd_exact hE]
  exact isCent_cent _

theorem scale_tradesOf (k : ℤ) (w : World) (s : ℕ) :
    Spec.tradesOf (Spec.scaleWorld k w) s = (Spec.tradesOf w s).map (Spec.scaleTrade k) := by
  unfold Spec.tradesOf
  have hs : (Spec.scaleWorld k w).strategies = w.strategies := rfl
  rw [hs]
  rcases w.strategies[s]? with _ | st
  · rfl
  · simp only
    rw [List.map_filterMap]
    exact List.filterMap_congr (fun i _ => scale_getElem? w i)

/-- C73, strategies: the result of each strategy is multiplied by `k`. -/
theorem C73_strategy_result_partial (hE : Exact) {k : ℤ} (hk : 0 < k) {env env' : Env} (henv : Spec.ScaledEnv k env env')
    (w : World) (l : List Cmd) (s : ℕ) :
    strategyResult (Spec.tradesOf ((Spec.scaleWorld k w).runCmds env' (l.map (Spec.scaleCmd k))) s) .none =
      k * strategyResult (Spec.tradesOf (w.runCmds env l) s) .none := by
  rw [C73_scaling_partial hE hk henv, scale_tradesOf]
  generalize Spec.tradesOf (w.runCmds env l) s = L
  unfold strategyResult TradesArg.resolve
  simp only
  rw [rnd_exact hE, rnd_exact hE, foldl_fadd_exact hE, foldl_fadd_exact hE, zero_add, zero_add]
  have h1 : ((L.map (Spec.scaleTrade k)).map Trade.result).sum = k * (L.map Trade.result).sum := by
    induction L with
    | nil => simp
    | cons t L ih => simp only [List.map_cons, List.sum_cons]; rw [ih, scale_result hk hE]; ring
  have h2 : IsCent (L.map Trade.result).sum := by
    refine isCent_sum fun x hx => ?_
    obtain ⟨t, _, rfl⟩ := List.mem_map.mp hx
    exact isCent_result hE t
  have h3 : IsCent (k * (L.map Trade.result).sum) := by
    rw [mul_comm]
    exact h2.mul_int k
  rw [h1, h3.cent, h2.cent]

theorem scale_pfSums (hE : Exact) {k : ℤ} (hk : 0 < k) (L : List Trade) :
    pfSums (L.map (Spec.scaleTrade k)) = (k * (pfSums L).1, k * (pfSums L).2) := by
  have hk' : (0 : ℚ) < k := by exact_mod_cast hk
  unfold pfSums
  have h : ∀ a b : ℚ, (L.map (Spec.scaleTrade k)).foldl
      (fun s t => if 0 ≤ t.result then (fadd s.1 t.result, s.2) else (s.1, fadd s.2 t.result)) (k * a, k * b) =
      (k * (L.foldl (fun s t => if 0 ≤ t.result then (fadd s.1 t.result, s.2) else (s.1, fadd s.2 t.result)) (a, b)).1,
       k * (L.foldl (fun s t => if 0 ≤ t.result then (fadd s.1 t.result, s.2) else (s.1, fadd s.2 t.result)) (a, b)).2) := by
    induction L with
    | nil => intro a b; rfl
    | cons t L ih =>
      intro a b
      simp only [List.map_cons, List.foldl_cons]
      rw [scale_result hk hE]
      have h0 : 0 ≤ (k : ℚ) * t.result ↔ 0 ≤ t.result := by
        constructor
        · intro h; by_contra hc; push Not at hc; have := mul_neg_of_pos_of_neg hk' hc; linarith
        · intro h; exact mul_nonneg hk'.le h
      simp only [h0]
      split_ifs
      · rw [← ih]
        congr 2
        rw [fadd_exact hE, fadd_exact hE]; ring
      · rw [← ih]
        congr 2
        rw [fadd_exact hE, fadd_exact hE]; ring
  have := h 0 0
  rwa [mul_zero] at this

/-- C73, profit factor: of strategies that have lost at least 1 it does not depend on the size of positions. -/
theorem C73_profit_factor_partial (hE : Exact) {k : ℤ} (hk : 0 < k) {env env' : Env} (henv : Spec.ScaledEnv k env env')
    (w : World) (l : List Cmd) (s : ℕ) (hl : (pfSums (Spec.tradesOf (w.runCmds env l) s)).2 ≤ -1) :
    profitFactor (Spec.tradesOf ((Spec.scaleWorld k w).runCmds env' (l.map (Spec.scaleCmd k))) s) .none =
      profitFactor (Spec.tradesOf (w.runCmds env l) s) .none := by
  have hk1 : (1 : ℚ) ≤ k := by exact_mod_cast hk
  rw [C73_scaling_partial hE hk henv, scale_tradesOf]
  generalize Spec.tradesOf (w.runCmds env l) s = L at hl
  unfold profitFactor TradesArg.resolve
  simp only
  rw [scale_pfSums hE hk]
  generalize pfSums L = p at hl
  have h1 : (k : ℚ) * p.2 ≤ -1 := by nlinarith
  have h2 : |(k : ℚ) * p.2| = -(k * p.2) := abs_of_neg (by linarith)
  have h3 : |p.2| = -p.2 := abs_of_neg (by linarith)
  simp only [h2, h3]
  rw [if_neg (by intro h; linarith), if_neg (by intro h; linarith), if_neg (by intro h; linarith),
    if_neg (by intro h; linarith)]
  have h4 : pyDiv ((k : ℚ) * p.1) (k * p.2) = pyDiv p.1 p.2 := by
    unfold pyDiv
    rw [if_neg (by intro h; linarith), if_neg (by intro h; linarith)]
    unfold fdiv
    rw [mul_div_mul_left _ _ (by intro h; linarith)]
  rw [h4]

/-- Spec: callbacks that perform a fixed plan of operations, chosen on what the epics show. -/
def Spec.planned (plan : ℕ → Cb → ℕ → List Epic → List Op) : Env :=
  fun s cb e w => (plan s cb e w.epics).foldr (fun o p => .act o (fun _ _ => p)) .done

/-- C73: callbacks that trade fixed quantities on the quotes, frames and indicators are covered. -/
theorem C73_planned (k : ℤ) (plan : ℕ → Cb → ℕ → List Epic → List Op) :
    Spec.ScaledEnv k (Spec.planned plan) (Spec.planned (fun s cb e l => (plan s cb e l).map (Spec.scaleOp k))) := by
  intro s cb e w
  unfold Spec.planned
  have he : (Spec.scaleWorld k w).epics = w.epics := rfl
  simp only [he]
  induction plan s cb e w.epics with
  | nil => exact .done
  | cons o l ih => exact .act o _ _ (fun _ _ => ih)

end

/-! ## Concrete cases -/

/-- Strategy 0 buys 2 units when the market opens, sells 1 at each tick of an open market, and closes everything at the end
of the day. -/
private def plan : ℕ → Cb → ℕ → List Epic → List Op
  | 0, .marketOpen, e, _ => [.openTrade e (some 0) (some .buy) 2]
  | 0, .everyTickOpen, e, _ => [.openTrade e (some 0) (some .sell) 1]
  | 0, .marketClose, _, _ => [.closeOpened 0 none]
  | _, _, _, _ => []

/-- C73: that strategy, and the same with 14 and 7 units; results of its trades and of the strategy. -/
example : letI := Arith.exact
    let w := Demo.world.runCmds (Spec.planned plan) Demo.script
    let w' := Demo.world.runCmds (Spec.planned (fun s cb e l => (plan s cb e l).map (Spec.scaleOp 7)))
      (Demo.script.map (Spec.scaleCmd 7))
    ((Spec.tradesOf w 0).map Trade.result, (Spec.tradesOf w' 0).map Trade.result) = ([-3, -3], [-21, -21]) ∧
    strategyResult (Spec.tradesOf w 0) .none = -6 ∧ strategyResult (Spec.tradesOf w' 0) .none = -42 := by
  letI := Arith.exact
  decide +kernel

/-- C73 is false for the profit factor of strategies that have lost less than 1: two trades that make 1 and lose 0.5 give
1, the same with twice the quantity 2. -/
theorem C73_false : letI := Arith.exact
    let win : Trade := Trade.new .buy 1 10 (Demo.tk 0 1 1).dt 0 (some 11) (some 0)
    let lose : Trade := Trade.new .buy 1 10 (Demo.tk 0 1 1).dt 0 (some (19/2)) (some 0)
    let win' : Trade := Trade.new .buy 2 10 (Demo.tk 0 1 1).dt 0 (some 11) (some 0)
    let lose' : Trade := Trade.new .buy 2 10 (Demo.tk 0 1 1).dt 0 (some (19/2)) (some 0)
    [win', lose'] = [win, lose].map (Spec.scaleTrade 2) ∧ profitFactor [win, lose] .none = .ok 1 ∧
    profitFactor [win', lose'] .none = .ok 2 := by
  letI := Arith.exact
  decide +kernel

end Estrade
