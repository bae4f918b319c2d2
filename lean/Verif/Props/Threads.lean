import Verif.Lemmas.Blank
import Verif.Lemmas.Covered
import Verif.Props.Portfolio

/-!
# C35: request threads

A request thread is one atomic step (`Op.thread`) that main program and callbacks may let happen between any two
operations, in any order.
-/

set_option linter.style.haveILetI false
set_option linter.unusedSectionVars false
set_option autoImplicit false

namespace Estrade

section
variable [Arith]

/-! ## Schedules -/

/-- Spec: worlds that agree on everything but statuses of trades and closes and liveness of threads. -/
def Spec.Agree (w w' : World) : Prop := w.blank = w'.blank

/-- Spec: the same user code under two schedules: same actions, told apart neither by statuses nor by liveness; thread
steps anywhere. -/
inductive Spec.SameUser : Prog → Prog → Prop
  | done : Spec.SameUser .done .done
  | raise (e : PyErr) : Spec.SameUser (.raise e) (.raise e)
  | act (o : Op) (k k' : World → Option PyErr → Prog) (ho : o.isThread = false)
      (h : ∀ w w' err, Spec.Agree w w' → Spec.SameUser (k w err) (k' w' err)) :
      Spec.SameUser (.act o k) (.act o k')
  | left (p i : ℕ) (st : Option Status) (k : World → Option PyErr → Prog) (q : Prog)
      (h : ∀ w err, Spec.SameUser (k w err) q) : Spec.SameUser (.act (.thread p i st) k) q
  | right (p i : ℕ) (st : Option Status) (q : Prog) (k : World → Option PyErr → Prog)
      (h : ∀ w err, Spec.SameUser q (k w err)) : Spec.SameUser q (.act (.thread p i st) k)

/-- Spec: the same callbacks under two schedules. -/
def Spec.SameEnv (env env' : Env) : Prop :=
  ∀ s cb e w w', Spec.Agree w w' → Spec.SameUser (env s cb e w) (env' s cb e w')

/-- Spec: is a command a thread step? -/
def Spec.isThread : Cmd → Bool
  | .op (.thread _ _ _) => true
  | _ => false

/-- Results that agree, exceptions included. -/
def AgreeR (r r' : World × Option PyErr) : Prop := Spec.Agree r.1 r'.1 ∧ r.2 = r'.2

theorem agree_thread (w : World) (p i : ℕ) (st : Option Status) : Spec.Agree (w.step (.thread p i st)).1 w :=
  thread_blank w p i st

theorem agree_step {w w' : World} (h : Spec.Agree w w') (o : Op) (ho : o.isThread = false) :
    AgreeR (w.step o) (w'.step o) := by
  have h1 := blank_step w o ho
  have h2 := blank_step w' o ho
  rw [show w.blank = w'.blank from h, h2] at h1
  injection h1 with h1 h3
  exact ⟨h1.symm, h3.symm⟩

theorem agree_run {p p' : Prog} (hp : Spec.SameUser p p') : ∀ {w w' : World}, Spec.Agree w w' →
    AgreeR (p.run w) (p'.run w') := by
  induction hp with
  | done => intro w w' h; exact ⟨h, rfl⟩
  | raise e => intro w w' h; exact ⟨h, rfl⟩
  | act o k k' ho _ ih =>
    intro w w' h
    obtain ⟨a, b⟩ := agree_step h o ho
    unfold Prog.run
    dsimp only
    rw [← b]
    exact ih _ _ _ a a
  | left q i st k p' _ ih =>
    intro w w' h
    rw [show (Prog.act (.thread q i st) k).run w = (k (w.step (.thread q i st)).1 (w.step (.thread q i st)).2).run
      (w.step (.thread q i st)).1 from rfl]
    exact ih _ _ ((agree_thread w q i st).trans h)
  | right q i st p k _ ih =>
    intro w w' h
    rw [show (Prog.act (.thread q i st) k).run w' = (k (w'.step (.thread q i st)).1 (w'.step (.thread q i st)).2).run
      (w'.step (.thread q i st)).1 from rfl]
    exact ih _ _ (h.trans (agree_thread w' q i st).symm)

theorem agree_with_log {w w' : World} (h : Spec.Agree w w') (ev : Event) :
    Spec.Agree { w with log := w.log ++ [ev] } { w' with log := w'.log ++ [ev] } := by
  unfold Spec.Agree World.blank at *
  simp only [World.mk.injEq] at *
  exact ⟨h.1, h.2.1, h.2.2.1, h.2.2.2.1, by rw [h.2.2.2.2]⟩

theorem Agree.epics {w w' : World} (h : Spec.Agree w w') : w.epics = w'.epics := by
  unfold Spec.Agree World.blank at h; injection h

theorem Agree.strategies {w w' : World} (h : Spec.Agree w w') : w.strategies = w'.strategies := by
  unfold Spec.Agree World.blank at h; injection h

theorem agree_call {env env' : Env} (he : Spec.SameEnv env env') {w w' : World} (h : Spec.Agree w w') (s : ℕ) (cb : Cb)
    (e : ℕ) : AgreeR (w.call env s cb e) (w'.call env' s cb e) := by
  unfold World.call
  have := agree_with_log h (.notify s e cb)
  exact agree_run (he s cb e _ _ this) this

theorem agree_callIf {env env' : Env} (he : Spec.SameEnv env env') {w w' : World} (h : Spec.Agree w w') (c : Bool) (s : ℕ)
    (cb : Cb) (e : ℕ) : AgreeR (w.callIf env c s cb e) (w'.callIf env' c s cb e) := by
  unfold World.callIf
  split_ifs
  · exact agree_call he h s cb e
  · exact ⟨h, rfl⟩

theorem agree_andThen {r r' : World × Option PyErr} (h : AgreeR r r') {f f' : World → World × Option PyErr}
    (hf : ∀ w w', Spec.Agree w w' → AgreeR (f w) (f' w')) : AgreeR (andThen r f) (andThen r' f') := by
  obtain ⟨w, x⟩ := r
  obtain ⟨w', x'⟩ := r'
  obtain ⟨h1, h2⟩ := h
  simp only at h1 h2
  subst h2
  cases x with
  | none => exact hf w w' h1
  | some e => exact ⟨h1, rfl⟩

theorem agree_notifyAll {env env' : Env} (he : Spec.SameEnv env env') {w w' : World} (h : Spec.Agree w w') (e s : ℕ)
    (b : Bool) : AgreeR (w.notifyAll env e s b) (w'.notifyAll env' e s b) := by
  have hm : ∀ {u u' : World}, Spec.Agree u u' → u.marketOpen e = u'.marketOpen e := fun h => by
    unfold World.marketOpen; rw [Agree.epics h]
  unfold World.notifyAll
  rw [hm h]
  refine agree_andThen (agree_callIf he h _ _ _ _) fun u u' h => ?_
  rw [hm h]
  refine agree_andThen (agree_callIf he h _ _ _ _) fun u u' h => ?_
  rw [hm h]
  exact agree_andThen (agree_callIf he h _ _ _ _) fun u u' h => agree_call he h _ _ _

theorem agree_execStrategies {env env' : Env} (he : Spec.SameEnv env env') (e : ℕ) (b : Bool) (dt : DT) (l : List ℕ) :
    ∀ {w w' : World}, Spec.Agree w w' → AgreeR (execStrategies env e b dt w l) (execStrategies env' e b dt w' l) := by
  induction l with
  | nil => intro w w' h; exact ⟨h, rfl⟩
  | cons s rest ih =>
    intro w w' h
    unfold execStrategies
    refine agree_andThen ?_ (fun _ _ h => ih h)
    unfold World.execStrategy
    rw [Agree.strategies h]
    rcases w'.strategies[s]? with _ | st
    · exact ⟨h, rfl⟩
    · dsimp only
      have h' : Spec.Agree { w with strategies := w'.strategies.set s (st.isActive dt).2 }
          { w' with strategies := w'.strategies.set s (st.isActive dt).2 } := by
        unfold Spec.Agree World.blank at *
        simp only [World.mk.injEq] at *
        exact ⟨h.1, trivial, h.2.2.1, h.2.2.2.1, h.2.2.2.2⟩
      split_ifs
      · exact agree_notifyAll he h' _ _ _
      · exact ⟨h', rfl⟩

theorem agree_set_epics {w w' : World} (h : Spec.Agree w w') (es : List Epic) :
    Spec.Agree { w with epics := es } { w' with epics := es } := by
  unfold Spec.Agree World.blank at *
  simp only [World.mk.injEq] at *
  exact ⟨trivial, h.2.1, h.2.2.1, h.2.2.2.1, h.2.2.2.2⟩

theorem agree_tick {env env' : Env} (he : Spec.SameEnv env env') {w w' : World} (h : Spec.Agree w w') (e : ℕ) (k : Tick) :
    AgreeR (w.onNewTick env e k) (w'.onNewTick env' e k) := by
  unfold World.onNewTick
  rw [Agree.epics h]
  rcases w'.epics[e]? with _ | ep
  · exact ⟨h, rfl⟩
  · dsimp only
    split_ifs
    · exact ⟨h, rfl⟩
    · have h' := agree_with_log (agree_set_epics h (w'.epics.set e (ep.accept { k with dt := k.dt.to ep.zone }).1))
        (.accepted e { k with dt := k.dt.to ep.zone })
      rcases (ep.accept { k with dt := k.dt.to ep.zone }).2 with _ | err
      · refine agree_execStrategies he _ _ _ _ ?_
        unfold Spec.Agree
        rw [← blank_updateOpenTrades, ← blank_updateOpenTrades]
        exact congrArg (fun u => World.updateOpenTrades u ep.provider { k with dt := k.dt.to ep.zone }) h'
      · exact ⟨h', rfl⟩

theorem agree_exec {env env' : Env} (he : Spec.SameEnv env env') {w w' : World} (h : Spec.Agree w w') (c : Cmd)
    (hc : Spec.isThread c = false) : AgreeR (w.exec env c) (w'.exec env' c) := by
  cases c with
  | tick e k => exact agree_tick he h e k
  | op o =>
    refine agree_step h o ?_
    cases o <;> first | rfl | cases hc
  | addFrameSet e ref fs =>
    simp only [World.exec, World.addFrameSet]
    rw [Agree.epics h]
    rcases w'.epics[e]? with _ | ep
    · exact ⟨h, rfl⟩
    · simp only
      rcases ep.addFrameSet ref fs with err | ep'
      · exact ⟨h, rfl⟩
      · exact ⟨agree_set_epics h _, rfl⟩
  | addStrategy e s =>
    simp only [World.exec, World.addStrategy]
    rw [Agree.epics h, Agree.strategies h]
    rcases w'.epics[e]? with _ | ep
    · exact ⟨h, rfl⟩
    · rcases w'.strategies[s]? with _ | st
      · exact ⟨h, rfl⟩
      · simp only
        split
        · exact ⟨h, rfl⟩
        · refine ⟨?_, rfl⟩
          have h1 := Agree.epics h
          have h2 := Agree.strategies h
          unfold Spec.Agree World.blank at *
          simp only [World.mk.injEq, World.modStrategy, World.modEpic] at *
          exact ⟨by rw [h1], by rw [h2], h.2.2.1, h.2.2.2.1, h.2.2.2.2⟩
  | addIndicator e ref ind =>
    simp only [World.exec, World.addIndicator]
    rw [Agree.epics h]
    rcases w'.epics[e]? with _ | ep
    · exact ⟨h, rfl⟩
    · simp only
      split
      · exact ⟨h, rfl⟩
      · exact ⟨agree_set_epics h _, rfl⟩

theorem agree_thread_cmd (env : Env) (w : World) (c : Cmd) (hc : Spec.isThread c = true) :
    Spec.Agree (w.exec env c).1 w := by
  cases c with
  | op o =>
    cases o with
    | thread p i st => exact thread_blank w p i st
    | _ => cases hc
  | _ => cases hc

theorem agree_runCmds {env env' : Env} (he : Spec.SameEnv env env') (l : List Cmd) : ∀ (l' : List Cmd) {w w' : World},
    Spec.Agree w w' → l.filter (fun c => !Spec.isThread c) = l'.filter (fun c => !Spec.isThread c) →
    Spec.Agree (w.runCmds env l) (w'.runCmds env' l') := by
  induction l with
  | nil =>
    intro l'
    induction l' with
    | nil => intro w w' h _; exact h
    | cons c' l' ih =>
      intro w w' h hl
      rcases hc : Spec.isThread c' with _ | _
      · rw [List.filter_cons, hc] at hl; simp at hl
      · rw [List.filter_cons, hc] at hl
        rw [runCmds_cons]
        exact ih (h.trans (agree_thread_cmd env' w' c' hc).symm) (by simpa using hl)
  | cons c l ih =>
    intro l' w w' h hl
    rcases hc : Spec.isThread c with _ | _
    · induction l' generalizing w' with
      | nil => rw [List.filter_cons, hc] at hl; simp at hl
      | cons c' l' ih' =>
        rcases hc' : Spec.isThread c' with _ | _
        · rw [List.filter_cons, hc, List.filter_cons, hc'] at hl
          simp only [Bool.not_false, if_true, List.cons.injEq] at hl
          obtain ⟨rfl, hl⟩ := hl
          rw [runCmds_cons, runCmds_cons]
          exact ih l' (agree_exec he h c hc).1 hl
        · rw [runCmds_cons env' w' c' l']
          refine ih' (h.trans (agree_thread_cmd env' w' c' hc').symm) ?_
          rw [hl, List.filter_cons, hc']; simp
    · rw [runCmds_cons]
      exact ih l' ((agree_thread_cmd env w c hc).trans h) (by rw [← hl, List.filter_cons, hc]; simp)

/-- C35: two runs of the same program that differ only in when (and whether, and with what status) request threads run,
between commands and inside callbacks.  Epics, strategies and history are the same; so are, trade by trade, quantities,
prices, closes and results. -/
theorem C35_schedule_irrelevant {env env' : Env} (he : Spec.SameEnv env env') (w : World) (l l' : List Cmd)
    (hl : l.filter (fun c => !Spec.isThread c) = l'.filter (fun c => !Spec.isThread c)) :
    let u := w.runCmds env l
    let u' := w.runCmds env' l'
    u.epics = u'.epics ∧ u.strategies = u'.strategies ∧ u.log = u'.log ∧ u.trades.length = u'.trades.length ∧
    ∀ (i : ℕ) t t', u.trades[i]? = some t → u'.trades[i]? = some t' →
      t.epic = t'.epic ∧ t.strategy = t'.strategy ∧ t.dir = t'.dir ∧ t.dt = t'.dt ∧
      t.openQty = t'.openQty ∧ t.openedQty = t'.openedQty ∧ t.closedQty = t'.closedQty ∧
      t.openValue = t'.openValue ∧ t.curClose = t'.curClose ∧
      t.closes.map (fun c => (c.closeValue, c.qty, c.dt)) = t'.closes.map (fun c => (c.closeValue, c.qty, c.dt)) ∧
      t.openedResult = t'.openedResult ∧ t.closedResult = t'.closedResult ∧ t.result = t'.result ∧
      t.maxRes = t'.maxRes ∧ t.minRes = t'.minRes := by
  intro u u'
  have h : u.blank = u'.blank := agree_runCmds he l l' rfl hl
  have ht : u.trades.map Trade.blank = u'.trades.map Trade.blank := congrArg World.trades h
  refine ⟨(congrArg World.epics h :), (congrArg World.strategies h :), (congrArg World.log h :), ?_, ?_⟩
  · simpa using congrArg List.length ht
  · intro i t t' h1 h2
    have hb : t.blank = t'.blank := by
      have := congrArg (fun l : List Trade => l[i]?) ht
      simpa [h1, h2] using this
    have hc : t.closes.map TradeClose.blank = t'.closes.map TradeClose.blank := congrArg Trade.closes hb
    refine ⟨(congrArg Trade.epic hb :), (congrArg Trade.strategy hb :), (congrArg Trade.dir hb :), (congrArg Trade.dt hb :),
      (congrArg Trade.openQty hb :), ?_, ?_, (congrArg Trade.openValue hb :), (congrArg Trade.curClose hb :), ?_, ?_, ?_, ?_,
      (congrArg Trade.maxRes hb :), (congrArg Trade.minRes hb :)⟩
    · rw [← Trade.blank_openedQty t, hb, Trade.blank_openedQty]
    · rw [← Trade.blank_closedQty t, hb, Trade.blank_closedQty]
    · have := congrArg (List.map (fun c : TradeClose => (c.closeValue, c.qty, c.dt))) hc
      rw [List.map_map, List.map_map] at this
      exact this
    · rw [← Trade.blank_openedResult t, hb, Trade.blank_openedResult]
    · rw [← Trade.blank_closedResult t, hb, Trade.blank_closedResult]
    · rw [← Trade.blank_result t, hb, Trade.blank_result]

/-! ## Confirmation -/

/-- C35, confirmation: when no thread of a backtests provider is alive, everything it has a thread for is confirmed, in
particular every trade it has. -/
theorem C35_confirmed {env : Env} {w : World} (hw : Reachable env w) {p : ℕ} {pr : Provider}
    (hpr : w.providers[p]? = some pr) (hk : pr.kind = .backtests) (ha : pr.isAlive = false) :
    (∀ th ∈ pr.threads, Spec.statusOf w th.target = some .confirmed) ∧
    ∀ i ∈ pr.trades, ∃ t, w.trades[i]? = some t ∧ t.status = .confirmed := by
  have hi := hw.threadInv
  have h1 : ∀ th ∈ pr.threads, Spec.statusOf w th.target = some .confirmed := by
    intro th hth
    refine hi.dead p pr hpr hk th hth ?_
    unfold Provider.isAlive at ha
    rw [List.any_eq_false] at ha
    simpa using ha th hth
  refine ⟨h1, fun i hm => ?_⟩
  obtain ⟨th, h2, h3⟩ := hi.listed p pr hpr i hm
  have := h1 th h2
  rw [h3] at this
  simp only [Spec.statusOf] at this
  exact Option.map_eq_some_iff.mp this

/-- Spec: programs that close trades through epics, strategies and the provider only (never `trade.close` itself). -/
def Spec.NoDirectClose (env : Env) (l : List Cmd) : Prop :=
  (∀ s cb e w, (env s cb e w).All Op.NotDirect) ∧ ∀ i v dt q, Cmd.op (.close i v dt q) ∉ l

/-- Programs that close through the API objects have a request thread for every close. -/
theorem noDirectClose_covered {env : Env} {w0 : World} (h0 : w0.Init) (l : List Cmd) (hd : Spec.NoDirectClose env l) :
    Covered (w0.runCmds env l) ∧ EpicsOk (w0.runCmds env l) := by
  refine run_inv (I := fun w => Covered w ∧ EpicsOk w) (Q := Op.NotDirect) step_covered ?_ ?_ hd.1 l ?_ w0
    ⟨?_, Init.epicsOk h0⟩
  · intro w w' g1 g2 g3 ⟨hc, he⟩
    refine ⟨hc.of ?_ ?_, ?_⟩
    · rintro tg ⟨p, pr, a, b⟩; exact ⟨p, pr, by rw [g2]; exact a, b⟩
    · intro i k h; left; rw [statusOf_closing] at h ⊢; rw [← g1]; exact h
    · intro ep hep
      rw [g2]
      have : ep.provider ∈ w'.epics.map Epic.provider := List.mem_map_of_mem hep
      rw [g3] at this
      obtain ⟨ep', h1, h2⟩ := List.mem_map.mp this
      rw [← h2]; exact he ep' h1
  · intro w p k ⟨hc, he⟩
    exact ⟨updateOpenTrades_covered w p k hc, (updateOpenTrades_steps (V := False) w p k).epicsOk he⟩
  · intro o ho
    cases o with
    | close i v dt q => exact absurd ho (hd.2 i v dt q)
    | _ => trivial
  · intro i k h
    rw [statusOf_closing, h0.trades] at h
    obtain ⟨t, h, -⟩ := h; simp at h

/-- C35, confirmation of closes: in a program that closes through the API objects, with backtests providers none of which
is alive, every close of every trade is confirmed. -/
theorem C35_closes_confirmed {env : Env} {w0 : World} (h0 : w0.Init) (l : List Cmd) (hd : Spec.NoDirectClose env l)
    (hk : ∀ pr ∈ (w0.runCmds env l).providers, pr.kind = .backtests ∧ pr.isAlive = false) :
    ∀ t ∈ (w0.runCmds env l).trades, ∀ c ∈ t.closes, c.status = .confirmed := by
  have hc := noDirectClose_covered h0 l hd
  intro t ht c hcl
  obtain ⟨i, hi⟩ := List.getElem?_of_mem ht
  obtain ⟨k, hkk⟩ := List.getElem?_of_mem hcl
  obtain ⟨p, pr, h1, th, h2, h3⟩ := hc.1 i k ((statusOf_closing _ i k).mpr ⟨t, hi, getElem?_lt hkk⟩)
  obtain ⟨h4, h5⟩ := hk pr (List.mem_of_getElem? h1)
  have := (C35_confirmed ⟨w0, h0, l, rfl⟩ h1 h4 h5).1 th h2
  rw [h3] at this
  simp only [Spec.statusOf, hi, Option.bind_some, hkk, Option.map_some, Option.some.injEq] at this
  exact this

end

/-! ## Concrete cases -/

/-- Two schedules of one program (a buy netted by a sell): threads at the end, or right away and out of order; same
trades up to statuses. -/
example : letI := Arith.exact
    let prog (a b : List Cmd) : List Cmd := [.addStrategy 0 0, .tick 0 (Demo.tk 480 10 12),
      .op (.openTrade 0 (some 0) (some .buy) 3)] ++ a ++ [.op (.openTrade 0 (some 0) (some .sell) 1)] ++ b
    let w := Demo.world.runCmds Demo.quiet (prog [.op (.thread 0 0 none)] [])
    let w' := Demo.world.runCmds Demo.quiet (prog [] [.op (.thread 0 1 none), .op (.thread 0 0 none)])
    w.trades.map Trade.result = [-6, 0] ∧ w'.trades.map Trade.result = [-6, 0] ∧
    w.trades.map Trade.status = [.confirmed, .created] ∧
    w.trades.map (fun t => t.closes.map TradeClose.status) = [[.created], []] ∧
    w'.trades.map (fun t => t.closes.map TradeClose.status) = [[.confirmed], []] ∧
    w.providers.map Provider.isAlive = [true] ∧ w'.providers.map Provider.isAlive = [false] := by decide +kernel

/-- A callback that lets a thread run when called, and one that does not, are the same user code. -/
example : letI := Arith.exact
    Spec.SameEnv (fun _ cb _ _ => if cb = .everyTick then .act (.thread 0 0 none) (fun _ _ => .done) else .done)
      Demo.quiet := by
  letI := Arith.exact
  intro s cb e w w' _
  dsimp only [Demo.quiet]
  split_ifs
  · exact .left _ _ _ _ _ (fun _ _ => .done)
  · exact .done

end Estrade
