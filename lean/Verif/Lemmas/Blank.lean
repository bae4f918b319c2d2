import Verif.Lemmas.WorldLog

/-!
# Worlds up to what request threads change

A request thread changes the status of one trade or close and its own liveness.  `World.blank` erases both; every other
operation commutes with it.
-/

set_option linter.unusedSectionVars false
set_option autoImplicit false

namespace Estrade

section
variable [Arith]

/-- A close with its status erased. -/
def TradeClose.blank (c : TradeClose) : TradeClose := { c with status := .created }

/-- A trade with all statuses erased. -/
def Trade.blank (t : Trade) : Trade := { t with status := .created, closes := t.closes.map TradeClose.blank }

/-- A provider with the liveness of its threads erased. -/
def Provider.blank (p : Provider) : Provider :=
  { p with threads := p.threads.map (fun th => { th with alive := true }) }

/-- A world with statuses and liveness erased. -/
def World.blank (w : World) : World :=
  { w with trades := w.trades.map Trade.blank, providers := w.providers.map Provider.blank }

theorem Trade.blank_closedQty (t : Trade) : t.blank.closedQty = t.closedQty := by
  unfold Trade.closedQty Trade.blank
  simp only [List.map_map]
  rfl

theorem Trade.blank_openedQty (t : Trade) : t.blank.openedQty = t.openedQty := by
  unfold Trade.openedQty; rw [Trade.blank_closedQty]; rfl

theorem Trade.blank_closed (t : Trade) : t.blank.closed = t.closed := by
  unfold Trade.closed; rw [Trade.blank_openedQty]

theorem Trade.blank_openedResult (t : Trade) : t.blank.openedResult = t.openedResult := by
  unfold Trade.openedResult Trade.openedResultAvg
  rw [Trade.blank_closed, Trade.blank_openedQty]; rfl

theorem Trade.blank_closedResult (t : Trade) : t.blank.closedResult = t.closedResult := by
  unfold Trade.closedResult
  unfold Trade.blank
  simp only [List.map_map]
  rfl

theorem Trade.blank_result (t : Trade) : t.blank.result = t.result := by
  unfold Trade.result; rw [Trade.blank_openedResult, Trade.blank_closedResult]

theorem Trade.blank_updateMinMax (t : Trade) : t.blank.updateMinMax = t.updateMinMax.blank := by
  have h1 : ∀ (u : Trade) (x : ℚ), ({ u with maxRes := x } : Trade).result = u.result := fun _ _ => rfl
  unfold Trade.updateMinMax
  rw [Trade.blank_result]
  simp only [show t.blank.maxRes = t.maxRes from rfl]
  by_cases h : t.maxRes < t.result
  · simp only [h, if_true]
    rw [h1 t.blank t.result, h1 t t.result, Trade.blank_result]
    simp only [show t.blank.minRes = t.minRes from rfl]
    split_ifs <;> rfl
  · simp only [h, if_false]
    rw [Trade.blank_result]
    simp only [show t.blank.minRes = t.minRes from rfl]
    split_ifs <;> rfl

theorem Trade.blank_update (t : Trade) (v : ℚ) : t.blank.update v = (t.update v).blank := by
  unfold Trade.update
  rw [Trade.blank_closed]
  split_ifs
  · rfl
  · rw [← Trade.blank_updateMinMax]; rfl

theorem Trade.blank_updateFromTick (t : Trade) (k : Tick) : t.blank.updateFromTick k = (t.updateFromTick k).blank := by
  unfold Trade.updateFromTick; rw [← Trade.blank_update]; rfl

theorem Trade.blank_closeQty (t : Trade) (q : Option ℤ) : t.blank.closeQty q = t.closeQty q := by
  unfold Trade.closeQty; rw [Trade.blank_openedQty]

theorem Trade.blank_close (t : Trade) (v : ℚ) (dt : DT) (q : Option ℤ) :
    t.blank.close v dt q = (t.close v dt q).blank := by
  unfold Trade.close
  rw [Trade.blank_closeQty]
  unfold Trade.blank
  simp only [List.map_append]
  rfl

theorem Trade.blank_closeFromTick (t : Trade) (k : Tick) (q : Option ℤ) :
    t.blank.closeFromTick k q = (t.closeFromTick k q).blank := by
  unfold Trade.closeFromTick
  simp only
  rw [Trade.blank_updateFromTick, ← Trade.blank_close]
  rfl

theorem map_modify_comm {α β : Type} (g : α → β) (f : α → α) (f' : β → β) (h : ∀ x, f' (g x) = g (f x)) (l : List α)
    (i : ℕ) : (l.map g).modify i f' = (l.modify i f).map g := by
  apply List.ext_getElem?
  intro j
  rw [List.getElem?_modify, List.getElem?_map, List.getElem?_map, List.getElem?_modify]
  split_ifs
  · rcases l[j]? with _ | x
    · rfl
    · simp [h]
  · rcases l[j]? with _ | x <;> rfl

theorem blank_modTrade (w : World) (i : ℕ) (f f' : Trade → Trade) (h : ∀ x, f' x.blank = (f x).blank) :
    ({ w.blank with trades := w.blank.trades.modify i f' } : World) =
      World.blank { w with trades := w.trades.modify i f } := by
  unfold World.blank
  simp only
  rw [map_modify_comm Trade.blank f f' h]

theorem blank_modProvider (w : World) (p : ℕ) (f f' : Provider → Provider) (h : ∀ x, f' x.blank = (f x).blank) :
    w.blank.modProvider p f' = (w.modProvider p f).blank := by
  unfold World.modProvider World.blank
  simp only
  rw [map_modify_comm Provider.blank f f' h]

theorem blank_spawn (pr : Provider) (tg : Target) : pr.blank.spawn tg = (pr.spawn tg).blank := by
  unfold Provider.spawn Provider.blank
  simp

theorem blank_trade (w : World) (i : ℕ) : w.blank.trades[i]? = (w.trades[i]?).map Trade.blank := by
  unfold World.blank; simp

theorem blank_provider (w : World) (p : ℕ) : w.blank.providers[p]? = (w.providers[p]?).map Provider.blank := by
  unfold World.blank; simp

theorem blank_closeOn (w : World) (p i : ℕ) (q : Option ℤ) :
    w.blank.closeOn p i q = (w.closeOn p i q).map World.blank := by
  unfold World.closeOn
  rw [blank_trade]
  rcases ht : w.trades[i]? with _ | t
  · rfl
  · simp only [Option.map_some]
    rw [show w.blank.epics = w.epics from rfl, show t.blank.epic = t.epic from rfl]
    rcases w.epics[t.epic]? with _ | ep
    · rfl
    · simp only [Except.map]
      congr 1
      rw [show t.blank.closes.length = t.closes.length by simp [Trade.blank]]
      rw [← blank_modProvider _ p (fun pr => pr.spawn (.closing i t.closes.length))
        (fun pr => pr.spawn (.closing i t.closes.length)) (fun x => blank_spawn x _)]
      congr 1
      unfold World.setTrade World.blank
      simp only [List.map_set]
      rw [Trade.blank_closeFromTick]

theorem blank_openedTrades (w : World) (pr : Provider) : w.blank.openedTrades pr.blank = w.openedTrades pr := by
  unfold World.openedTrades
  rw [show pr.blank.trades = pr.trades from rfl]
  apply List.filter_congr
  intro i _
  rw [blank_trade]
  rcases w.trades[i]? with _ | t
  · rfl
  · simp only [Option.map_some]; rw [Trade.blank_closed]

theorem blank_netLoop (p : ℕ) (l : List ℕ) : ∀ (w : World) (new : Trade),
    netLoop p w.blank new.blank l = (netLoop p w new l).map (fun r => (r.1.blank, r.2.blank)) := by
  induction l with
  | nil => intro w new; rfl
  | cons i rest ih =>
    intro w new
    unfold netLoop
    rw [blank_trade]
    rcases ht : w.trades[i]? with _ | t
    · rfl
    · simp only [Option.map_some]
      rw [show t.blank.dir = t.dir from rfl, show new.blank.dir = new.dir from rfl,
        show t.blank.strategy = t.strategy from rfl, show new.blank.strategy = new.strategy from rfl,
        Trade.blank_openedQty, show new.blank.openQty = new.openQty from rfl]
      split_ifs
      · exact ih w new
      · simp only [bind, Except.bind]
        rw [blank_closeOn]
        rcases hc : w.closeOn p i (some (min t.openedQty new.openQty)) with err | w'
        · rfl
        · simp only [Except.map]
          exact ih w' { new with openQty := new.openQty - min t.openedQty new.openQty }
      · exact ih w new

theorem blank_register (w : World) (p i : ℕ) (s : Option ℕ) :
    w.blank.register p i s = (w.register p i s).blank := by
  unfold World.register
  simp only
  rw [blank_modProvider w p (fun pr => { pr with trades := pr.trades ++ [i] }) _ (fun _ => rfl)]
  rcases s with _ | s
  · exact blank_modProvider _ _ _ _ (fun x => blank_spawn x _)
  · rw [← blank_modProvider _ p (fun pr => pr.spawn (.opening i)) (fun pr => pr.spawn (.opening i))
      (fun x => blank_spawn x _)]
    rfl

theorem blank_append (w : World) (t : Trade) :
    ({ w.blank with trades := w.blank.trades ++ [t.blank] } : World) = World.blank { w with trades := w.trades ++ [t] } := by
  unfold World.blank; simp

theorem blank_providerOpen (w : World) (p : ℕ) (new : Trade) :
    w.blank.providerOpen p new.blank = (w.providerOpen p new).map World.blank := by
  unfold World.providerOpen
  rw [blank_provider]
  rcases hp : w.providers[p]? with _ | pr
  · rfl
  · simp only [Option.map_some]
    rw [show pr.blank.kind = pr.kind from rfl]
    cases pr.kind with
    | custom =>
      simp only [Except.map]
      rw [blank_append, blank_register, show w.blank.trades.length = w.trades.length by simp [World.blank]]
      rfl
    | backtests =>
      simp only [bind, Except.bind]
      rw [blank_openedTrades, blank_netLoop]
      rcases netLoop p w new (w.openedTrades pr) with err | r
      · rfl
      · simp only [Except.map]
        rw [show r.2.blank.openQty = r.2.openQty from rfl, blank_append,
          show r.1.blank.trades.length = r.1.trades.length by simp [World.blank], blank_register,
          show new.blank.strategy = new.strategy from rfl]
        split_ifs <;> rfl

theorem blank_closeTrade (w : World) (e i : ℕ) (q : Option ℤ) :
    w.blank.closeTrade e i q = (w.closeTrade e i q).map World.blank := by
  unfold World.closeTrade
  rw [show w.blank.epics = w.epics from rfl]
  rcases w.epics[e]? with _ | ep
  · rfl
  · exact blank_closeOn w _ _ _

theorem blank_closeOpenedLoop (q : Option ℤ) (l : List ℕ) : ∀ (w : World),
    closeOpenedLoop q w.blank l = (closeOpenedLoop q w l).map World.blank := by
  induction l with
  | nil => intro w; rfl
  | cons i rest ih =>
    intro w
    unfold closeOpenedLoop
    rw [blank_trade]
    rcases ht : w.trades[i]? with _ | t
    · rfl
    · simp only [Option.map_some]
      rw [Trade.blank_closed]
      split_ifs
      · exact ih w
      · simp only [bind, Except.bind]
        rw [show t.blank.epic = t.epic from rfl, blank_closeTrade]
        rcases w.closeTrade t.epic i q with err | w'
        · rfl
        · exact ih w'

theorem blank_orKeep (w : World) (r : Except PyErr World) :
    orKeep w.blank (r.map World.blank) = ((orKeep w r).1.blank, (orKeep w r).2) := by
  cases r <;> rfl

/-- Is an operation a thread step? -/
def Op.isThread : Op → Bool
  | .thread _ _ _ => true
  | _ => false

theorem openFromTick_blank {k : Tick} {e : ℕ} {d : Option Dir} {q : ℤ} {s : Option ℕ} {t : Trade}
    (h : Trade.openFromTick k e d q s = .ok t) : t.blank = t := by
  rcases d with _ | d
  · cases h
  · cases d <;> (injection h with h; subst h; rfl)

theorem blank_step (w : World) (o : Op) (ho : o.isThread = false) :
    w.blank.step o = ((w.step o).1.blank, (w.step o).2) := by
  cases o with
  | openTrade e s d q =>
    simp only [World.step]
    rw [show w.blank.epics = w.epics from rfl]
    rcases w.epics[e]? with _ | ep
    · rfl
    · simp only
      rw [show w.blank.strategies = w.strategies from rfl]
      split_ifs
      · rw [← blank_orKeep]
        congr 1
        simp only [bind, Except.bind]
        rcases ht : Trade.openFromTick ep.lastTick e d q s with err | t
        · rfl
        · simp only
          rw [← blank_providerOpen, openFromTick_blank ht]
      · rfl
  | closeTrade e i q => simp only [World.step]; rw [blank_closeTrade, blank_orKeep]
  | closeOpened s q =>
    simp only [World.step]
    rw [show w.blank.strategies = w.strategies from rfl]
    rcases w.strategies[s]? with _ | st
    · rfl
    · simp only; rw [blank_closeOpenedLoop, blank_orKeep]
  | update i v => simp only [World.step]; rw [blank_modTrade _ _ _ _ (fun x => Trade.blank_update x v)]
  | close i v dt q => simp only [World.step]; rw [blank_modTrade _ _ _ _ (fun x => Trade.blank_close x v dt q)]
  | pause s d => rfl
  | stop s b => rfl
  | thread p i st => cases ho

theorem setStatus_blank (w : World) (tg : Target) (st : Status) : (w.setStatus tg st).blank = w.blank := by
  cases tg with
  | opening i =>
    unfold World.setStatus
    rw [← blank_modTrade w i (fun t => { t with status := st }) id (fun _ => rfl)]
    rw [List.modify_id]
  | closing i k =>
    unfold World.setStatus
    simp only
    rw [← blank_modTrade w i _ id ?_]
    · rw [List.modify_id]
    · intro t
      unfold Trade.blank
      simp only [id]
      congr 1
      rw [← map_modify_comm TradeClose.blank (fun c => { c with status := st }) id (fun _ => rfl), List.modify_id]

/-- Thread steps only change what `blank` erases. -/
theorem thread_blank (w : World) (p i : ℕ) (st : Option Status) : (w.runThread p i st).1.blank = w.blank := by
  unfold World.runThread
  rcases w.providers[p]? with _ | pr
  · rfl
  · dsimp only
    rcases pr.threads[i]? with _ | th
    · rfl
    · dsimp only
      have : (w.modProvider p (fun pr =>
          { pr with threads := pr.threads.modify i (fun th => { th with alive := false }) })).blank = w.blank := by
        rw [← blank_modProvider w p _ id ?_]
        · unfold World.modProvider; rw [List.modify_id]
        · intro pr
          unfold Provider.blank
          simp only [id]
          congr 1
          have := map_modify_comm (fun th : Thread => (⟨th.target, true⟩ : Thread))
            (fun th => ⟨th.target, false⟩) id (fun _ => rfl) pr.threads i
          rw [List.modify_id] at this
          exact this
      split_ifs
      · cases pr.kind
        · rw [setStatus_blank, this]
        · cases st
          · exact this
          · simp only; rw [setStatus_blank, this]
      · rfl

theorem blank_updateOpenTrades (w : World) (p : ℕ) (k : Tick) :
    w.blank.updateOpenTrades p k = (w.updateOpenTrades p k).blank := by
  unfold World.updateOpenTrades
  rw [blank_provider]
  rcases w.providers[p]? with _ | pr
  · rfl
  · simp only [Option.map_some]
    rw [blank_openedTrades]
    generalize w.openedTrades pr = l
    induction l generalizing w with
    | nil => rfl
    | cons i l ih =>
      rw [List.foldl_cons, List.foldl_cons, ← ih,
        blank_modTrade _ _ _ _ (fun x => Trade.blank_updateFromTick x k)]

end

end Estrade
