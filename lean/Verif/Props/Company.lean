import Verif.Lemmas.Company

/-!
# C113: a strategy does the same in any company
# C114: markets a strategy does not deal in do not matter to it
-/

set_option linter.style.haveILetI false
set_option linter.unusedSectionVars false
set_option autoImplicit false

namespace Estrade

section
variable [Arith]

/-- Spec: what strategy `s` sees: the epics without the strategies registered with them, its own state, and its own trades without statuses and
without the strategy. -/
def Spec.look (s : ℕ) (w : World) : Spec.View := match w.strategies[s]? with
  | none => ⟨w.epics.map Epic.bare, none, false, []⟩
  | some st => ⟨w.epics.map Epic.bare, st.pausedUntil, st.stopped, st.trades.filterMap (fun i => (w.trades[i]?).map Trade.anon)⟩

/-- Spec: what strategy `s` sees if it looks at the epics `es` only. -/
def Spec.glance (es : List ℕ) (s : ℕ) (w : World) : Spec.View := match w.strategies[s]? with
  | none => ⟨es.filterMap (fun e => (w.epics[e]?).map Epic.bare), none, false, []⟩
  | some st => ⟨es.filterMap (fun e => (w.epics[e]?).map Epic.bare), st.pausedUntil, st.stopped,
      st.trades.filterMap (fun i => (w.trades[i]?).map Trade.anon)⟩

/-- Spec: strategy `s` runs `code` on what it observes; every other strategy decides on the whole world, uses its own trades only and lets no exception
out. -/
structure Spec.Plays (obs : World → Spec.View) (env : Env) (s : ℕ) (code : Cb → ℕ → Spec.View → Spec.Code Spec.View) : Prop where
  own : ∀ cb e w, env s cb e w = Spec.play obs s (code cb e (obs w)) w
  others : ∀ s1, s1 ≠ s → ∀ cb e w, ∃ c : Spec.Code World, c.Calm ∧ env s1 cb e w = Spec.play id s1 c w

/-- Spec: what a step of the main program means to strategy `s`; none: nothing. -/
inductive Spec.Shared
  | tick (e : ℕ) (k : Tick)
  | frameSet (e : ℕ) (ref : String) (fs : FrameSet)
  | indicator (e : ℕ) (ref : String) (ind : Indicator)
  | register (e : ℕ)
  | act (a : Spec.Act)

/-- Spec: see `Spec.Shared`. -/
def Spec.shared (s : ℕ) : Spec.Step → Option Spec.Shared
  | .tick e k => some (.tick e k)
  | .addFrameSet e ref fs => some (.frameSet e ref fs)
  | .addIndicator e ref ind => some (.indicator e ref ind)
  | .addStrategy e s1 => if s1 = s then some (.register e) else none
  | .act s1 a => if s1 = s then some (.act a) else none
  | .nobody .. => none
  | .thread .. => none

/-- Spec: the same for a strategy that deals with the epics `E` only: steps of other epics mean nothing. -/
def Spec.sharedIn (E : ℕ → Bool) (s : ℕ) : Spec.Step → Option Spec.Shared
  | .tick e k => if E e then some (.tick e k) else none
  | .addFrameSet e ref fs => if E e then some (.frameSet e ref fs) else none
  | .addIndicator e ref ind => if E e then some (.indicator e ref ind) else none
  | .addStrategy e s1 => if s1 = s then some (.register e) else none
  | .act s1 a => if s1 = s then some (.act a) else none
  | .nobody .. => none
  | .thread .. => none

theorem sharedIn_all (s : ℕ) : Spec.sharedIn (fun _ => true) s = Spec.shared s := by
  funext x
  cases x <;> rfl

/-- Spec: acts on epics of `E`. -/
def Spec.Act.Within (E : ℕ → Bool) : Spec.Act → Prop
  | .open e _ _ => E e = true
  | .close e _ _ => E e = true
  | _ => True

/-- Spec: code that opens and closes on epics of `E` only. -/
def Spec.Code.Within {α : Type} (E : ℕ → Bool) : Spec.Code α → Prop
  | .done => True
  | .raise _ => True
  | .act a k => a.Within E ∧ ∀ x e, (k x e).Within E

theorem within_all {α : Type} (d : Spec.Code α) : d.Within (fun _ => true) := by
  induction d with
  | done => trivial
  | raise e => trivial
  | act a k ih => exact ⟨by cases a <;> trivial, ih⟩

/-- Spec: a step of the main program that registers strategy `s` with epics of `E` only and opens and closes for it there only. -/
def Spec.Fits (E : ℕ → Bool) (s : ℕ) : Spec.Step → Prop
  | .addStrategy e s1 => s1 = s → E e = true
  | .act s1 a => s1 = s → a.Within E
  | _ => True

theorem fits_all (s : ℕ) : ∀ x, Spec.Fits (fun _ => true) s x
  | .addStrategy _ _ => fun _ => rfl
  | .act _ a => fun _ => by cases a <;> trivial
  | .tick _ _ => trivial
  | .addFrameSet .. => trivial
  | .addIndicator .. => trivial
  | .nobody .. => trivial
  | .thread .. => trivial

/-! ## Own operations -/

theorem Company.trades {c : Co} {w w' : World} (h : Company c w w') : ∃ st st', w.strategies[c.s]? = some st ∧ w'.strategies[c.s']? = some st' ∧
    st.pausedUntil = st'.pausedUntil ∧ st.stopped = st'.stopped ∧
    st.trades.filterMap (fun i => (w.trades[i]?).map Trade.anon) = st'.trades.filterMap (fun i => (w'.trades[i]?).map Trade.anon) := by
  obtain ⟨L, L', hr⟩ := h.rel
  obtain ⟨st, st', h1, h2, h3, h4, h5, h6, -, -⟩ := hr.own
  have : ∀ l l' : List ℕ, List.Forall₂ (Pair L L') l l' →
      l.filterMap (fun i => (w.trades[i]?).map Trade.anon) = l'.filterMap (fun i => (w'.trades[i]?).map Trade.anon) := by
    intro l l' hl
    induction hl with
    | nil => rfl
    | cons hp _ ih =>
      obtain ⟨t, t', a, b, d, -, -⟩ := hr.twins _ _ hp
      rw [List.filterMap_cons, List.filterMap_cons, a, b, ih]
      simp only [Option.map_some, d]
  exact ⟨st, st', h1, h2, h5, h6, by rw [h3, h4]; exact this _ _ (pairs_self hr.len)⟩

theorem Company.bares {c : Co} {w w' : World} (h : Company c w w') (e : ℕ) (hE : c.E e = true) :
    (w.epics[e]?).map Epic.bare = (w'.epics[e]?).map Epic.bare := by
  obtain ⟨L, L', hr⟩ := h.rel
  rcases hr.epics e hE with ⟨a, b⟩ | ⟨ep, ep', a, b, d⟩
  · rw [a, b]
  · rw [a, b]; simp only [Option.map_some, d.bare]

theorem Company.look {c : Co} (hc : ∀ e, c.E e = true) {w w' : World} (h : Company c w w') : Spec.look c.s w = Spec.look c.s' w' := by
  obtain ⟨st, st', h1, h2, h3, h4, h5⟩ := h.trades
  have he : w.epics.map Epic.bare = w'.epics.map Epic.bare := by
    apply List.ext_getElem?
    intro e
    rw [List.getElem?_map, List.getElem?_map]
    exact h.bares e (hc e)
  unfold Spec.look
  rw [h1, h2]
  dsimp only
  rw [he, h3, h4, h5]

theorem Company.glance {c : Co} {es : List ℕ} (hc : ∀ e ∈ es, c.E e = true) {w w' : World} (h : Company c w w') :
    Spec.glance es c.s w = Spec.glance es c.s' w' := by
  obtain ⟨st, st', h1, h2, h3, h4, h5⟩ := h.trades
  have he : es.filterMap (fun e => (w.epics[e]?).map Epic.bare) = es.filterMap (fun e => (w'.epics[e]?).map Epic.bare) :=
    List.filterMap_congr (fun e hm => h.bares e (hc e hm))
  unfold Spec.glance
  rw [h1, h2]
  dsimp only
  rw [he, h3, h4, h5]

theorem company_step {c : Co} {w w' : World} (h : Company c w w') {o o' : Op} (hr : ∃ L L', Peers c L L' (w.step o).1 (w'.step o').1) :
    Company c (w.step o).1 (w'.step o').1 := by
  have h1 := step_steps (V := False) h.ok (o := o) (fun v => v.elim)
  have h2 := step_steps (V := False) h.ok' (o := o') (fun v => v.elim)
  exact ⟨WSteps.inv (fun a b ha hb => hb.regInv ha) h1.lift h.reg, WSteps.inv (fun a b ha hb => hb.regInv ha) h2.lift h.reg',
    h1.epicsOk h.ok, h2.epicsOk h.ok', hr⟩

theorem orKeep_both2 {c : Co} {L L' : List ℕ} {w w' : World} (h : Peers c L L' w w') {r r' : Except PyErr World} (hb : Both2 c L L' r r') :
    (orKeep w r).2 = (orKeep w' r').2 ∧ Peers c L L' (orKeep w r).1 (orKeep w' r').1 := by
  rcases hb with ⟨e, rfl, rfl⟩ | ⟨u, u', rfl, rfl, hu⟩
  · exact ⟨rfl, h⟩
  · exact ⟨rfl, hu⟩

theorem company_act {c : Co} {w w' : World} (h : Company c w w') (a : Spec.Act) (hE : a.Within c.E) :
    (Spec.op c.s w a = none ∧ Spec.op c.s' w' a = none) ∨ ∃ o o', Spec.op c.s w a = some o ∧ Spec.op c.s' w' a = some o' ∧
      (w.step o).2 = (w'.step o').2 ∧ Company c (w.step o).1 (w'.step o').1 := by
  obtain ⟨L, L', hr⟩ := h.rel
  obtain ⟨st, st', h1, h2, h3, h4, h5, h6, -, -⟩ := hr.own
  have hnth : ∀ n, (Spec.nth c.s w n = none ∧ Spec.nth c.s' w' n = none) ∨
      ∃ i j, Spec.nth c.s w n = some i ∧ Spec.nth c.s' w' n = some j ∧ Pair L L' i j := by
    intro n
    unfold Spec.nth
    rw [h1, h2]
    simp only [Option.bind_some]
    rw [h3, h4]
    by_cases hn : n < L.length
    · have hn' : n < L'.length := by rw [← hr.len]; exact hn
      exact .inr ⟨_, _, List.getElem?_eq_getElem hn, List.getElem?_eq_getElem hn', n, List.getElem?_eq_getElem hn, List.getElem?_eq_getElem hn'⟩
    · have hn' : ¬ n < L'.length := by rw [← hr.len]; exact hn
      exact .inl ⟨List.getElem?_eq_none (by omega), List.getElem?_eq_none (by omega)⟩
  cases a with
  | «open» e d q =>
    obtain ⟨a, b⟩ := company_open h e hE d q
    exact .inr ⟨_, _, rfl, rfl, a, company_step h b⟩
  | close e n q =>
    rcases hnth n with ⟨a, b⟩ | ⟨i, j, a, b, d⟩
    · exact .inl ⟨by simp [Spec.op, a], by simp [Spec.op, b]⟩
    · refine .inr ⟨.closeTrade e i q, .closeTrade e j q, by simp [Spec.op, a], by simp [Spec.op, b], ?_⟩
      have : Both2 c L L' (w.closeTrade e i q) (w'.closeTrade e j q) := by
        unfold World.closeTrade
        rcases hr.epics e hE with ⟨e1, e2⟩ | ⟨ep, ep', e1, e2, e3⟩
        · rw [e1, e2]; exact .inl ⟨_, rfl, rfl⟩
        · rw [e1, e2]
          dsimp only
          rw [e3.provider]
          exact peers_closeOn hr d _ _
      obtain ⟨x, y⟩ := orKeep_both2 hr this
      exact ⟨x, company_step h ⟨L, L', y⟩⟩
  | closeAll q =>
    refine .inr ⟨.closeOpened c.s q, .closeOpened c.s' q, rfl, rfl, ?_⟩
    have hb : Both2 c L L' (closeOpenedLoop q w st.trades.reverse) (closeOpenedLoop q w' st'.trades.reverse) := by
      rw [h3, h4]
      exact peers_closeOpenedLoop q _ _ (List.rel_reverse (pairs_self hr.len)) w w' hr
    obtain ⟨x, y⟩ := orKeep_both2 hr hb
    have e1 : w.step (.closeOpened c.s q) = orKeep w (closeOpenedLoop q w st.trades.reverse) := by simp only [World.step, h1]
    have e2 : w'.step (.closeOpened c.s' q) = orKeep w' (closeOpenedLoop q w' st'.trades.reverse) := by simp only [World.step, h2]
    exact ⟨by rw [e1, e2]; exact x, company_step h ⟨L, L', by rw [e1, e2]; exact y⟩⟩
  | update n v =>
    rcases hnth n with ⟨a, b⟩ | ⟨i, j, a, b, d⟩
    · exact .inl ⟨by simp [Spec.op, a], by simp [Spec.op, b]⟩
    · exact .inr ⟨.update i v, .update j v, by simp [Spec.op, a], by simp [Spec.op, b], rfl,
        company_step h ⟨L, L', peers_modTrade hr d _ (fun t => anon_update t v) (fun t => ⟨(kept_update t v).strategy, (kept_update t v).epic⟩)⟩⟩
  | closeAt n v dt q =>
    rcases hnth n with ⟨a, b⟩ | ⟨i, j, a, b, d⟩
    · exact .inl ⟨by simp [Spec.op, a], by simp [Spec.op, b]⟩
    · exact .inr ⟨.close i v dt q, .close j v dt q, by simp [Spec.op, a], by simp [Spec.op, b], rfl,
        company_step h ⟨L, L', peers_modTrade hr d _ (fun t => anon_close t v dt q) (fun _ => ⟨rfl, rfl⟩)⟩⟩
  | pause dt =>
    exact .inr ⟨_, _, rfl, rfl, rfl, company_step h ⟨L, L', peers_modStrategy hr _ _ (fun _ => ⟨rfl, rfl⟩) (fun _ => ⟨rfl, rfl⟩)
      (fun _ _ _ hb => ⟨rfl, hb⟩)⟩⟩
  | stop b =>
    exact .inr ⟨_, _, rfl, rfl, rfl, company_step h ⟨L, L', peers_modStrategy hr _ _ (fun _ => ⟨rfl, rfl⟩) (fun _ => ⟨rfl, rfl⟩)
      (fun _ _ ha _ => ⟨ha, rfl⟩)⟩⟩

/-- Same exception, worlds that look the same. -/
def CompanyR (c : Co) (r r' : World × Option PyErr) : Prop := r.2 = r'.2 ∧ Company c r.1 r'.1

theorem company_play {c : Co} {obs obs' : World → Spec.View} (ho : ∀ w w', Company c w w' → obs w = obs' w') (d : Spec.Code Spec.View) :
    d.Within c.E → ∀ w w', Company c w w' → CompanyR c ((Spec.play obs c.s d w).run w) ((Spec.play obs' c.s' d w').run w') := by
  induction d with
  | done => intro _ w w' h; exact ⟨rfl, h⟩
  | raise e => intro _ w w' h; exact ⟨rfl, h⟩
  | act a k ih =>
    intro hw w w' h
    unfold Spec.play
    rcases company_act h a hw.1 with ⟨h1, h2⟩ | ⟨o, o', h1, h2, h3, h4⟩
    · rw [h1, h2, ho _ _ h]
      exact ih _ _ (hw.2 _ _) w w' h
    · rw [h1, h2]
      dsimp only [Prog.run]
      rw [ho _ _ h4, h3]
      exact ih _ _ (hw.2 _ _) _ _ h4

/-! ## Others -/

theorem company_foreign {c : Co} {s1 : ℕ} (hne : s1 ≠ c.s) (d : Spec.Code World) : d.Calm → ∀ w w', Company c w w' →
    ((Spec.play id s1 d w).run w).2 = none ∧ Company c ((Spec.play id s1 d w).run w).1 w' := by
  induction d with
  | done => intro _ w w' h; exact ⟨rfl, h⟩
  | raise e => intro hc; exact hc.elim
  | act a k ih =>
    intro hc w w' h
    unfold Spec.play
    rcases ho : Spec.op s1 w a with _ | o
    · exact ih _ _ (hc _ _) w w' h
    · dsimp only [Prog.run]
      exact ih _ _ (hc _ _) _ _ (h.left (step_steps h.ok (fun v => v.elim)).lift (fun st hst => keepsOwn_act hne h.reg hst a ho))

theorem CompanyR.andThen {c : Co} {r r' : World × Option PyErr} {f f' : World → World × Option PyErr} (h : CompanyR c r r')
    (hf : ∀ u u', Company c u u' → CompanyR c (f u) (f' u')) : CompanyR c (andThen r f) (andThen r' f') := by
  obtain ⟨u, e⟩ := r
  obtain ⟨u', e'⟩ := r'
  obtain ⟨h1, h2⟩ := h
  dsimp only at h1 h2
  subst h1
  cases e with
  | none => exact hf u u' h2
  | some x => exact ⟨rfl, h2⟩

theorem andThen_calm {r : World × Option PyErr} {f : World → World × Option PyErr} (h : r.2 = none) : andThen r f = f r.1 := by
  obtain ⟨u, e⟩ := r
  dsimp only at h
  subst h
  rfl

section
variable {c : Co} {obs obs' : World → Spec.View} {env env' : Env} {code : Cb → ℕ → Spec.View → Spec.Code Spec.View}

theorem company_call (ho : ∀ w w', Company c w w' → obs w = obs' w') (hw : ∀ cb e v, c.E e = true → (code cb e v).Within c.E)
    (hp : Spec.Plays obs env c.s code) (hp' : Spec.Plays obs' env' c.s' code) {w w' : World} (h : Company c w w') (cb : Cb) (e : ℕ) (hE : c.E e = true) :
    CompanyR c (w.call env c.s cb e) (w'.call env' c.s' cb e) := by
  have h' := h.log (w.log ++ [.notify c.s e cb]) (w'.log ++ [.notify c.s' e cb])
  unfold World.call
  simp only
  rw [hp.own, hp'.own, ho _ _ h']
  exact company_play ho _ (hw _ _ _ hE) _ _ h'

theorem company_callIf (ho : ∀ w w', Company c w w' → obs w = obs' w') (hw : ∀ cb e v, c.E e = true → (code cb e v).Within c.E)
    (hp : Spec.Plays obs env c.s code) (hp' : Spec.Plays obs' env' c.s' code) {w w' : World} (h : Company c w w') (b : Bool) (cb : Cb)
    (e : ℕ) (hE : c.E e = true) : CompanyR c (w.callIf env b c.s cb e) (w'.callIf env' b c.s' cb e) := by
  unfold World.callIf
  split_ifs
  · exact company_call ho hw hp hp' h cb e hE
  · exact ⟨rfl, h⟩

theorem Company.marketOpen {w w' : World} (h : Company c w w') (e : ℕ) (hE : c.E e = true) : w.marketOpen e = w'.marketOpen e := by
  obtain ⟨L, L', hr⟩ := h.rel
  unfold World.marketOpen
  rcases hr.epics e hE with ⟨a, b⟩ | ⟨ep, ep', a, b, d⟩
  · rw [a, b]
  · rw [a, b]
    exact show ep.bare.marketOpen = ep'.bare.marketOpen by rw [d.bare]

theorem company_notifyAll (ho : ∀ w w', Company c w w' → obs w = obs' w') (hw : ∀ cb e v, c.E e = true → (code cb e v).Within c.E)
    (hp : Spec.Plays obs env c.s code) (hp' : Spec.Plays obs' env' c.s' code) {w w' : World} (h : Company c w w') (e : ℕ)
    (hE : c.E e = true) (b : Bool) : CompanyR c (w.notifyAll env e c.s b) (w'.notifyAll env' e c.s' b) := by
  unfold World.notifyAll
  rw [h.marketOpen e hE]
  refine CompanyR.andThen (company_callIf ho hw hp hp' h _ _ _ hE) fun u u' hu => ?_
  rw [hu.marketOpen e hE]
  refine CompanyR.andThen (company_callIf ho hw hp hp' hu _ _ _ hE) fun v v' hv => ?_
  rw [hv.marketOpen e hE]
  exact CompanyR.andThen (company_callIf ho hw hp hp' hv _ _ _ hE) fun x x' hx => company_call ho hw hp hp' hx _ _ hE

theorem stranger_call {s1 : ℕ} (hne : s1 ≠ c.s) (hp : Spec.Plays obs env c.s code) {w w' : World} (h : Company c w w') (cb : Cb) (e : ℕ) :
    (w.call env s1 cb e).2 = none ∧ Company c (w.call env s1 cb e).1 w' := by
  have h' := h.log (w.log ++ [.notify s1 e cb]) w'.log
  unfold World.call
  simp only
  obtain ⟨d, h1, h2⟩ := hp.others s1 hne cb e { w with log := w.log ++ [.notify s1 e cb] }
  rw [h2]
  exact company_foreign hne _ h1 _ _ h'

theorem stranger_callIf {s1 : ℕ} (hne : s1 ≠ c.s) (hp : Spec.Plays obs env c.s code) {w w' : World} (h : Company c w w') (b : Bool) (cb : Cb) (e : ℕ) :
    (w.callIf env b s1 cb e).2 = none ∧ Company c (w.callIf env b s1 cb e).1 w' := by
  unfold World.callIf
  split_ifs
  · exact stranger_call hne hp h cb e
  · exact ⟨rfl, h⟩

theorem stranger_andThen {r : World × Option PyErr} {w' : World} {f : World → World × Option PyErr} (h : r.2 = none ∧ Company c r.1 w')
    (hf : ∀ u, Company c u w' → (f u).2 = none ∧ Company c (f u).1 w') : (andThen r f).2 = none ∧ Company c (andThen r f).1 w' := by
  rw [andThen_calm h.1]
  exact hf _ h.2

theorem stranger_exec {s1 : ℕ} (hne : s1 ≠ c.s) (hp : Spec.Plays obs env c.s code) {w w' : World} (h : Company c w w') (e : ℕ) (b : Bool) (dt : DT)
    (hlt : s1 < c.n) : (w.execStrategy env e s1 b dt).2 = none ∧ Company c (w.execStrategy env e s1 b dt).1 w' := by
  obtain ⟨L, L', hr⟩ := h.rel
  unfold World.execStrategy
  rcases hs : w.strategies[s1]? with _ | st
  · rw [List.getElem?_eq_none_iff, hr.size] at hs; omega
  · dsimp only
    rw [setActive_eq w hs]
    have h' : Company c (w.modStrategy s1 (fun st => (st.isActive dt).2)) w' :=
      h.left (setActive_steps w s1 dt) (fun st _ => keepsOwn_modStrategy hne _ _ _ (fun st => (isActive_keeps st dt).2.1))
    split_ifs
    · unfold World.notifyAll
      refine stranger_andThen (stranger_callIf hne hp h' _ _ _) fun u hu => ?_
      refine stranger_andThen (stranger_callIf hne hp hu _ _ _) fun v hv => ?_
      exact stranger_andThen (stranger_callIf hne hp hv _ _ _) fun x hx => stranger_call hne hp hx _ _
    · exact ⟨rfl, h'⟩

theorem company_exec (ho : ∀ w w', Company c w w' → obs w = obs' w') (hw : ∀ cb e v, c.E e = true → (code cb e v).Within c.E)
    (hp : Spec.Plays obs env c.s code) (hp' : Spec.Plays obs' env' c.s' code) {w w' : World} (h : Company c w w') (e : ℕ)
    (hE : c.E e = true) (b : Bool) (dt : DT) : CompanyR c (w.execStrategy env e c.s b dt) (w'.execStrategy env' e c.s' b dt) := by
  obtain ⟨L, L', hr⟩ := h.rel
  obtain ⟨st, st', h1, h2, h3, h4, h5, h6, -, -⟩ := hr.own
  unfold World.execStrategy
  rw [h1, h2]
  dsimp only
  rw [setActive_eq w h1, setActive_eq w' h2, (isActive_same h5 h6 dt).1]
  have hr' : Peers c L L' (w.modStrategy c.s (fun st => (st.isActive dt).2)) (w'.modStrategy c.s' (fun st => (st.isActive dt).2)) :=
    peers_modStrategy hr _ _ (fun st => ⟨(isActive_keeps st dt).1, (isActive_keeps st dt).2.1⟩)
      (fun st => ⟨(isActive_keeps st dt).1, (isActive_keeps st dt).2.1⟩) (fun a b ha hb => (isActive_same ha hb dt).2)
  have h' : Company c (w.modStrategy c.s (fun st => (st.isActive dt).2)) (w'.modStrategy c.s' (fun st => (st.isActive dt).2)) :=
    ⟨WSteps.inv (fun a b ha hb => hb.regInv ha) (setActive_steps w c.s dt) h.reg,
      WSteps.inv (fun a b ha hb => hb.regInv ha) (setActive_steps w' c.s' dt) h.reg',
      (setActive_steps w c.s dt).epicsOk h.ok, (setActive_steps w' c.s' dt).epicsOk h.ok', L, L', hr'⟩
  split_ifs
  · exact company_notifyAll ho hw hp hp' h' _ hE _
  · exact ⟨rfl, h'⟩

theorem company_execAll (ho : ∀ w w', Company c w w' → obs w = obs' w') (hw : ∀ cb e v, c.E e = true → (code cb e v).Within c.E)
    (hp : Spec.Plays obs env c.s code) (hp' : Spec.Plays obs' env' c.s' code) (e : ℕ) (hE : c.E e = true) (b : Bool) (dt : DT)
    (l : List ℕ) : ∀ l' : List ℕ, (∀ x ∈ l, x < c.n) → (∀ x ∈ l', x < c.n') → l.count c.s = l'.count c.s' → ∀ w w', Company c w w' →
    CompanyR c (execStrategies env e b dt w l) (execStrategies env' e b dt w' l') := by
  have right : ∀ (y : ℕ) (rest : List ℕ) (w w' : World), y ≠ c.s' → y < c.n' → Company c w w' →
      Company c w (w'.execStrategy env' e y b dt).1 ∧
      execStrategies env' e b dt w' (y :: rest) = execStrategies env' e b dt (w'.execStrategy env' e y b dt).1 rest := by
    intro y rest w w' hy hl h
    obtain ⟨h1, h2⟩ := stranger_exec (c := c.swap) hy hp' h.swap e b dt hl
    refine ⟨h2.swap, ?_⟩
    show andThen _ _ = _
    rw [andThen_calm h1]
  induction l with
  | nil =>
    intro l'
    induction l' with
    | nil => intro _ _ _ w w' h; exact ⟨rfl, h⟩
    | cons y rest ih =>
      intro hl hl' hc w w' h
      have hy : y ≠ c.s' := by
        rintro rfl
        simp at hc
      obtain ⟨h1, h2⟩ := right y rest w w' hy (hl' y (by simp)) h
      rw [h2]
      exact ih hl (fun x hx => hl' x (by simp [hx])) (by rw [List.count_cons_of_ne hy] at hc; exact hc) _ _ h1
  | cons x rest ih =>
    by_cases hx : x = c.s
    · subst hx
      intro l'
      induction l' with
      | nil => intro _ _ hc; simp at hc
      | cons y rest' ih' =>
        intro hl hl' hc w w' h
        by_cases hy : y = c.s'
        · subst hy
          refine CompanyR.andThen (company_exec ho hw hp hp' h e hE b dt) fun u u' hu => ?_
          exact ih rest' (fun x hx => hl x (by simp [hx])) (fun x hx => hl' x (by simp [hx]))
            (by rw [List.count_cons_self, List.count_cons_self] at hc; omega) u u' hu
        · obtain ⟨h1, h2⟩ := right y rest' w w' hy (hl' y (by simp)) h
          rw [h2]
          exact ih' hl (fun x hx => hl' x (by simp [hx])) (by rw [List.count_cons_of_ne hy] at hc; exact hc) _ _ h1
    · intro l' hl hl' hc w w' h
      obtain ⟨h1, h2⟩ := stranger_exec hx hp h e b dt (hl x (by simp))
      have : execStrategies env e b dt w (x :: rest) = execStrategies env e b dt (w.execStrategy env e x b dt).1 rest := by
        show andThen _ _ = _
        rw [andThen_calm h1]
      rw [this]
      exact ih l' (fun x hx => hl x (by simp [hx])) hl' (by rw [List.count_cons_of_ne hx] at hc; exact hc) _ _ h2

theorem company_update {w w' : World} (h : Company c w w') (p : ℕ) (k : Tick) : Company c (w.updateOpenTrades p k) (w'.updateOpenTrades p k) := by
  obtain ⟨L, L', hr⟩ := h.rel
  obtain ⟨st, st', h1, h2, h3, h4, h5, h6, h7, h8⟩ := hr.own
  have s1 := updateOpenTrades_steps (V := False) w p k
  have s2 := updateOpenTrades_steps (V := False) w' p k
  obtain ⟨a1, a2, a3, -⟩ := updateOpenTrades_rest w p k
  obtain ⟨b1, b2, b3, -⟩ := updateOpenTrades_rest w' p k
  refine ⟨WSteps.inv (fun a b ha hb => hb.regInv ha) s1.lift h.reg, WSteps.inv (fun a b ha hb => hb.regInv ha) s2.lift h.reg',
    s1.epicsOk h.ok, s2.epicsOk h.ok', L, L', by rw [a1, b1]; exact hr.epics, by rw [a1, a2, b2]; exact hr.kinds,
    by rw [a1]; exact hr.apart, by rw [b1]; exact hr.apart',
    by rw [a3]; exact hr.size, by rw [b3]; exact hr.size', by rw [a3]; exact hr.uniq, by rw [b3]; exact hr.uniq',
    ⟨st, st', by rw [a3]; exact h1, by rw [b3]; exact h2, h3, h4, h5, h6, h7, h8⟩, hr.len, hr.nodup, hr.nodup', ?_⟩
  intro i j hp
  obtain ⟨t, t', x, y, z, p1, p2, p3⟩ := hr.twins i j hp
  obtain ⟨n, hn, hn'⟩ := hp
  have e1 := updateOpenTrades_own h.reg h1 p k (h3 ▸ List.mem_of_getElem? hn) x
  have e2 := updateOpenTrades_own h.reg' h2 p k (h4 ▸ List.mem_of_getElem? hn') y
  refine ⟨_, _, e1, e2, ?_⟩
  rw [hr.providerOf z p3, (anon_same z).2.2.2]
  split_ifs
  · exact ⟨by rw [← anon_updateFromTick, ← anon_updateFromTick, z], (kept_update t _).strategy.trans p1, (kept_update t' _).strategy.trans p2,
      show c.E (t.update _).epic = true by rw [(kept_update t _).epic]; exact p3⟩
  · exact ⟨z, p1, p2, p3⟩

theorem kinds_set {E : ℕ → Bool} {κ : Type} {l : List Epic} {k k' : List κ}
    (h : ∀ (e : ℕ) ep, E e = true → l[e]? = some ep → k[ep.provider]? = k'[ep.provider]?) {e : ℕ} {ep x : Epic} (he : l[e]? = some ep)
    (hx : x.provider = ep.provider) : ∀ (j : ℕ) y, E j = true → (l.set e x)[j]? = some y → k[y.provider]? = k'[y.provider]? := by
  intro j y hj hy
  by_cases hne : e = j
  · subst hne
    rw [List.getElem?_set_self (List.getElem?_eq_some_iff.mp he).1] at hy
    injection hy with hy
    subst hy
    rw [hx]
    exact h e ep hj he
  · rw [List.getElem?_set_ne hne] at hy
    exact h j y hj hy

/-- An epic the strategy does not deal with changes in one system. -/
theorem company_elsewhere {w w' : World} (h : Company c w w') {e : ℕ} (hE : c.E e = false) {ep x : Epic} (he : w.epics[e]? = some ep)
    (hx : x.provider = ep.provider) (hs : c.s ∉ x.strategies.map Prod.snd) (g : List Event) :
    Company c { w with epics := w.epics.set e x, log := g } w' := by
  obtain ⟨L, L', hr⟩ := h.rel
  have s1 : WSteps False w { w with epics := w.epics.set e x } := .single (.epics _ (map_provider_set _ _ _ _ he hx))
  have h1 : Company c { w with epics := w.epics.set e x } w' := by
    refine ⟨WSteps.inv (fun a b ha hb => hb.regInv ha) s1 h.reg, h.reg', s1.epicsOk h.ok, h.ok', L, L', ?_, kinds_set hr.kinds he hx,
      hr.apart.set he hx (fun _ => hs), hr.apart', hr.size, hr.size', hr.uniq, hr.uniq', hr.own, hr.len, hr.nodup, hr.nodup', hr.twins⟩
    intro j hj
    have hne : e ≠ j := by
      rintro rfl
      rw [hE] at hj; cases hj
    show Opt2 _ (w.epics.set e x)[j]? _
    rw [List.getElem?_set_ne hne]
    exact hr.epics j hj
  exact h1.log g w'.log

theorem stranger_execAll (hp : Spec.Plays obs env c.s code) (e : ℕ) (b : Bool) (dt : DT) (l : List ℕ) (hl : c.s ∉ l) : ∀ w w', Company c w w' →
    Company c (execStrategies env e b dt w l).1 w' := by
  induction l with
  | nil => intro w w' h; exact h
  | cons x rest ih =>
    intro w w' h
    have hx : x ≠ c.s := fun hc => hl (by simp [hc])
    obtain ⟨L, L', hr⟩ := h.rel
    by_cases hlt : x < c.n
    · obtain ⟨h1, h2⟩ := stranger_exec hx hp h e b dt hlt
      have : execStrategies env e b dt w (x :: rest) = execStrategies env e b dt (w.execStrategy env e x b dt).1 rest := by
        show andThen _ _ = _
        rw [andThen_calm h1]
      rw [this]
      exact ih (fun hc => hl (by simp [hc])) _ _ h2
    · have hs : w.strategies[x]? = none := by rw [List.getElem?_eq_none_iff, hr.size]; omega
      have h1 : w.execStrategy env e x b dt = (w, some .attr) := by unfold World.execStrategy; rw [hs]
      show Company c (andThen (w.execStrategy env e x b dt) _).1 w'
      rw [h1]
      exact h

/-- A tick of an epic the strategy does not deal with, in one system. -/
theorem stranger_tick (hp : Spec.Plays obs env c.s code) {w w' : World} (h : Company c w w') {e : ℕ} (hE : c.E e = false) (k : Tick) :
    Company c (w.onNewTick env e k).1 w' := by
  obtain ⟨L, L', hr⟩ := h.rel
  unfold World.onNewTick
  rcases he : w.epics[e]? with _ | ep
  · exact h
  · dsimp only
    have hs := hr.apart.none e ep hE he
    split_ifs
    · exact h
    · have h1 := company_elsewhere (x := (ep.accept { k with dt := k.dt.to ep.zone }).1) h hE he rfl hs
        (w.log ++ [.accepted e { k with dt := k.dt.to ep.zone }])
      split
      · exact h1
      · refine stranger_execAll hp _ _ _ _ hs _ _ ?_
        obtain ⟨M, M', hm⟩ := h1.rel
        obtain ⟨st, st', o1, o2, o3, o4, o5⟩ := hm.own
        refine h1.left (updateOpenTrades_steps (V := False) _ _ _).lift (fun st0 h0 => ?_)
        obtain ⟨a1, a2, a3, -⟩ := updateOpenTrades_rest
          { w with epics := w.epics.set e (ep.accept { k with dt := k.dt.to ep.zone }).1,
                   log := w.log ++ [.accepted e { k with dt := k.dt.to ep.zone }] } ep.provider { k with dt := k.dt.to ep.zone }
        refine ⟨a1, by rw [a2], by rw [a3], fun st1 h2 => ⟨st1, by rw [a3]; exact h2, rfl, rfl, rfl⟩, ?_⟩
        intro i hi t ht
        refine ⟨t, ?_, rfl⟩
        rw [updateOpenTrades_own h1.reg h0 _ _ hi ht, if_neg]
        rintro ⟨hc, -⟩
        rw [o1] at h0
        injection h0 with h0
        rw [← h0, o3] at hi
        obtain ⟨n, hn⟩ := List.mem_iff_getElem?.mp hi
        have hn' : n < M'.length := by rw [← hm.len]; exact (List.getElem?_eq_some_iff.mp hn).1
        obtain ⟨t1, t1', x, -, -, -, -, hEt⟩ := hm.twins i M'[n] ⟨n, hn, List.getElem?_eq_getElem hn'⟩
        rw [ht] at x
        injection x with x
        subst x
        unfold World.providerOf at hc
        rw [Option.map_eq_some_iff] at hc
        obtain ⟨tp, c1, c2⟩ := hc
        have hself : (w.epics.set e (ep.accept { k with dt := k.dt.to ep.zone }).1)[e]? = some (ep.accept { k with dt := k.dt.to ep.zone }).1 :=
          List.getElem?_set_self (List.getElem?_eq_some_iff.mp he).1
        exact hm.apart.provider t.epic e tp _ hEt hE c1 hself c2.symm

theorem company_epics {w w' : World} (h : Company c w w') {e : ℕ} (hE : c.E e = true) {ep ep' x x' : Epic} (he : w.epics[e]? = some ep) (he' : w'.epics[e]? = some ep')
    (hx : x.provider = ep.provider) (hx' : x'.provider = ep'.provider) (hs : Same c x x') (g g' : List Event) :
    Company c { w with epics := w.epics.set e x, log := g } { w' with epics := w'.epics.set e x', log := g' } := by
  obtain ⟨L, L', hr⟩ := h.rel
  have s1 : WSteps False w { w with epics := w.epics.set e x } := .single (.epics _ (map_provider_set _ _ _ _ he hx))
  have s2 : WSteps False w' { w' with epics := w'.epics.set e x' } := .single (.epics _ (map_provider_set _ _ _ _ he' hx'))
  have h1 : Company c { w with epics := w.epics.set e x } { w' with epics := w'.epics.set e x' } :=
    ⟨WSteps.inv (fun a b ha hb => hb.regInv ha) s1 h.reg, WSteps.inv (fun a b ha hb => hb.regInv ha) s2 h.reg',
      s1.epicsOk h.ok, s2.epicsOk h.ok', L, L', fun j hj => opt2_set hr.epics hs j hj, kinds_set hr.kinds he hx,
      hr.apart.set he hx (fun hc => by rw [hE] at hc; cases hc), hr.apart'.set he' hx' (fun hc => by rw [hE] at hc; cases hc), hr.size, hr.size', hr.uniq, hr.uniq', hr.own, hr.len,
      hr.nodup, hr.nodup', hr.twins⟩
  exact h1.log g g'

theorem bare_accept (ep : Epic) (k : Tick) : ep.bare.accept k = ((ep.accept k).1.bare, (ep.accept k).2) := rfl

theorem Same.accept {ep ep' : Epic} (h : Same c ep ep') (k : Tick) : (ep.accept k).2 = (ep'.accept k).2 ∧ Same c (ep.accept k).1 (ep'.accept k).1 := by
  have h1 := bare_accept ep k
  rw [h.bare, bare_accept] at h1
  injection h1 with h1 h2
  exact ⟨h2.symm, h1.symm, h.count, h.has, h.valid, h.valid'⟩

theorem company_tick (ho : ∀ w w', Company c w w' → obs w = obs' w') (hw : ∀ cb e v, c.E e = true → (code cb e v).Within c.E)
    (hp : Spec.Plays obs env c.s code) (hp' : Spec.Plays obs' env' c.s' code) {w w' : World} (h : Company c w w') (e : ℕ)
    (hE : c.E e = true) (k : Tick) : CompanyR c (w.onNewTick env e k) (w'.onNewTick env' e k) := by
  obtain ⟨L, L', hr⟩ := h.rel
  unfold World.onNewTick
  rcases hr.epics e hE with ⟨a, b⟩ | ⟨ep, ep', a, b, d⟩
  · rw [a, b]; exact ⟨rfl, h⟩
  · rw [a, b]
    dsimp only
    have hz : ep.zone = ep'.zone := show ep.bare.zone = ep'.bare.zone by rw [d.bare]
    have hm : ep.marketOpen = ep'.marketOpen := show ep.bare.marketOpen = ep'.bare.marketOpen by rw [d.bare]
    rw [hz, d.tick, hm]
    split_ifs
    · exact ⟨rfl, h⟩
    · obtain ⟨x1, x2⟩ := d.accept { k with dt := k.dt.to ep'.zone }
      have h1 := company_epics (x := (ep.accept { k with dt := k.dt.to ep'.zone }).1) (x' := (ep'.accept { k with dt := k.dt.to ep'.zone }).1)
        h hE a b rfl rfl x2 (w.log ++ [.accepted e { k with dt := k.dt.to ep'.zone }])
        (w'.log ++ [.accepted e { k with dt := k.dt.to ep'.zone }])
      rw [x1]
      split
      · exact ⟨rfl, h1⟩
      · rw [d.provider]
        exact company_execAll ho hw hp hp' _ hE _ _ _ _ d.valid d.valid' d.count _ _ (company_update h1 _ _)

/-! ## Runs -/

theorem count_set_own {ep : Epic} {r : String} {s : ℕ} (h : ep.strategies.get? r = none) (x : ℕ) :
    ((ep.strategies.set r s).map Prod.snd).count x = (ep.strategies.map Prod.snd).count x + if s = x then 1 else 0 := by
  rw [Dict.set_new _ _ _ h, List.map_append, List.count_append]
  simp [List.count_singleton]

theorem addFrameSet_bare (ep : Epic) (ref : String) (fs : FrameSet) :
    ep.bare.addFrameSet ref fs = (ep.addFrameSet ref fs).map Epic.bare ∧
    ∀ x, ep.addFrameSet ref fs = .ok x → x.strategies = ep.strategies ∧ x.provider = ep.provider := by
  unfold Epic.addFrameSet
  rw [show ep.bare.frameSets = ep.frameSets from rfl]
  split
  · exact ⟨rfl, fun _ h => by cases h⟩
  · refine ⟨rfl, fun x h => ?_⟩
    injection h with h
    subst h
    exact ⟨rfl, rfl⟩

theorem Same.register {ep ep' : Epic} (h : Same c ep ep') (hs : c.s < c.n) (hs' : c.s' < c.n') (h1 : ep.strategies.get? c.r = none)
    (h2 : ep'.strategies.get? c.r' = none) :
    Same c { ep with strategies := ep.strategies.set c.r c.s } { ep' with strategies := ep'.strategies.set c.r' c.s' } := by
  refine ⟨h.bare, ?_, ?_, ?_, ?_⟩
  · show ((ep.strategies.set c.r c.s).map Prod.snd).count c.s = ((ep'.strategies.set c.r' c.s').map Prod.snd).count c.s'
    rw [count_set_own h1, count_set_own h2, h.count, if_pos rfl, if_pos rfl]
  · show ((ep.strategies.set c.r c.s).get? c.r).isSome = ((ep'.strategies.set c.r' c.s').get? c.r').isSome
    rw [Dict.set_new _ _ _ h1, Dict.set_new _ _ _ h2, Dict.get?_append_single, Dict.get?_append_single, h1, h2]
    simp
  · intro x hx
    rw [show ({ ep with strategies := ep.strategies.set c.r c.s } : Epic).strategies = ep.strategies.set c.r c.s from rfl, Dict.set_new _ _ _ h1,
      List.map_append, List.mem_append] at hx
    rcases hx with hx | hx
    · exact h.valid x hx
    · rw [show x = c.s by simpa using hx]; exact hs
  · intro x hx
    rw [show ({ ep' with strategies := ep'.strategies.set c.r' c.s' } : Epic).strategies = ep'.strategies.set c.r' c.s' from rfl,
      Dict.set_new _ _ _ h2, List.map_append, List.mem_append] at hx
    rcases hx with hx | hx
    · exact h.valid' x hx
    · rw [show x = c.s' by simpa using hx]; exact hs'

theorem Same.other {ep ep' : Epic} (h : Same c ep ep') {r1 : String} {s1 : ℕ} (hr : r1 ≠ c.r) (hs : s1 ≠ c.s) (hlt : s1 < c.n)
    (h1 : ep.strategies.get? r1 = none) : Same c { ep with strategies := ep.strategies.set r1 s1 } ep' := by
  refine ⟨h.bare, ?_, ?_, ?_, h.valid'⟩
  · show ((ep.strategies.set r1 s1).map Prod.snd).count c.s = _
    rw [count_set_own h1, h.count, if_neg hs]; rfl
  · show ((ep.strategies.set r1 s1).get? c.r).isSome = _
    rw [Dict.set_new _ _ _ h1, Dict.get?_append_single, ← h.has]
    cases ep.strategies.get? c.r <;> simp [hr]
  · intro x hx
    rw [show ({ ep with strategies := ep.strategies.set r1 s1 } : Epic).strategies = ep.strategies.set r1 s1 from rfl, Dict.set_new _ _ _ h1,
      List.map_append, List.mem_append] at hx
    rcases hx with hx | hx
    · exact h.valid x hx
    · rw [show x = s1 by simpa using hx]; exact hlt

theorem company_linked {w w' : World} (h : Company c w w') (f f' : Strategy → Strategy)
    (hf : ∀ st, (f st).trades = st.trades ∧ (f st).ref = st.ref ∧ (f st).pausedUntil = st.pausedUntil ∧ (f st).stopped = st.stopped)
    (hf' : ∀ st, (f' st).trades = st.trades ∧ (f' st).ref = st.ref ∧ (f' st).pausedUntil = st.pausedUntil ∧ (f' st).stopped = st.stopped) :
    Company c (w.modStrategy c.s f) (w'.modStrategy c.s' f') := by
  obtain ⟨L, L', hr⟩ := h.rel
  have t1 : WSteps False w (w.modStrategy c.s f) := .single (.prim (.strat c.s _ (fun st => ⟨(hf st).1, (hf st).2.1⟩)))
  have t2 : WSteps False w' (w'.modStrategy c.s' f') := .single (.prim (.strat c.s' _ (fun st => ⟨(hf' st).1, (hf' st).2.1⟩)))
  exact ⟨WSteps.inv (fun a b ha hb => hb.regInv ha) t1 h.reg, WSteps.inv (fun a b ha hb => hb.regInv ha) t2 h.reg',
    t1.epicsOk h.ok, t2.epicsOk h.ok', L, L', peers_modStrategy hr f f' (fun st => ⟨(hf st).1, (hf st).2.1⟩) (fun st => ⟨(hf' st).1, (hf' st).2.1⟩)
      (fun a b ha hb => ⟨by rw [(hf a).2.2.1, (hf' b).2.2.1, ha], by rw [(hf a).2.2.2, (hf' b).2.2.2, hb]⟩)⟩

theorem company_shared (ho : ∀ w w', Company c w w' → obs w = obs' w') (hw : ∀ cb e v, c.E e = true → (code cb e v).Within c.E)
    (hp : Spec.Plays obs env c.s code) (hp' : Spec.Plays obs' env' c.s' code) {w w' : World} (h : Company c w w') {x y : Spec.Step}
    {z : Spec.Shared} (hx : Spec.sharedIn c.E c.s x = some z) (hy : Spec.sharedIn c.E c.s' y = some z) (hfit : Spec.Fits c.E c.s x) :
    Company c (Spec.doStep env w x) (Spec.doStep env' w' y) := by
  obtain ⟨L, L', hr⟩ := h.rel
  have back : ∀ s1 y, Spec.sharedIn c.E s1 y = some z → match z with
      | .tick e k => y = .tick e k ∧ c.E e = true
      | .frameSet e ref fs => y = .addFrameSet e ref fs ∧ c.E e = true
      | .indicator e ref ind => y = .addIndicator e ref ind ∧ c.E e = true
      | .register e => y = .addStrategy e s1
      | .act a => y = .act s1 a := by
    intro s1 y hy
    unfold Spec.sharedIn at hy
    split at hy
    · split_ifs at hy with hs
      injection hy with hy; subst hy; exact ⟨rfl, hs⟩
    · split_ifs at hy with hs
      injection hy with hy; subst hy; exact ⟨rfl, hs⟩
    · split_ifs at hy with hs
      injection hy with hy; subst hy; exact ⟨rfl, hs⟩
    · split_ifs at hy with hs
      injection hy with hy; subst hy; subst hs; rfl
    · split_ifs at hy with hs
      injection hy with hy; subst hy; subst hs; rfl
    · cases hy
    · cases hy
  have hx := back _ _ hx
  have hy := back _ _ hy
  cases z with
  | tick e k =>
    dsimp only at hx hy
    obtain ⟨hx, hE⟩ := hx
    obtain ⟨hy, -⟩ := hy
    subst hx hy
    exact (company_tick ho hw hp hp' h e hE k).2
  | frameSet e ref fs =>
    dsimp only at hx hy
    obtain ⟨hx, hE⟩ := hx
    obtain ⟨hy, -⟩ := hy
    subst hx hy
    simp only [Spec.doStep, World.exec, World.addFrameSet]
    rcases hr.epics e hE with ⟨a, b⟩ | ⟨ep, ep', a, b, d⟩
    · rw [a, b]; exact h
    · rw [a, b]
      dsimp only
      obtain ⟨h1, h2⟩ := addFrameSet_bare ep ref fs
      obtain ⟨h1', h2'⟩ := addFrameSet_bare ep' ref fs
      rw [d.bare, h1'] at h1
      rcases ha : ep.addFrameSet ref fs with err | v
      · rcases ha' : ep'.addFrameSet ref fs with err' | v'
        · exact h
        · rw [ha, ha'] at h1; cases h1
      · rcases ha' : ep'.addFrameSet ref fs with err' | v'
        · rw [ha, ha'] at h1; cases h1
        · rw [ha, ha'] at h1
          have hb : v'.bare = v.bare := by injection h1
          obtain ⟨k1, k2⟩ := h2 v ha
          obtain ⟨k1', k2'⟩ := h2' v' ha'
          exact company_epics h hE a b k2 k2' ⟨hb.symm, by rw [k1, k1']; exact d.count, by rw [k1, k1']; exact d.has, by rw [k1]; exact d.valid,
            by rw [k1']; exact d.valid'⟩ w.log w'.log
  | indicator e ref ind =>
    dsimp only at hx hy
    obtain ⟨hx, hE⟩ := hx
    obtain ⟨hy, -⟩ := hy
    subst hx hy
    simp only [Spec.doStep, World.exec, World.addIndicator]
    rcases hr.epics e hE with ⟨a, b⟩ | ⟨ep, ep', a, b, d⟩
    · rw [a, b]; exact h
    · rw [a, b]
      have hf : ep.frameSets = ep'.frameSets := show ep.bare.frameSets = ep'.bare.frameSets by rw [d.bare]
      dsimp only
      rw [hf]
      split
      · exact h
      · rename_i v _
        refine company_epics (x := { ep with frameSets := ep'.frameSets.set ref (v.addIndicator ind).1 })
          (x' := { ep' with frameSets := ep'.frameSets.set ref (v.addIndicator ind).1 }) h hE a b rfl rfl ⟨?_, d.count, d.has, d.valid, d.valid'⟩ w.log w'.log
        show ({ ep.bare with frameSets := ep'.frameSets.set ref (v.addIndicator ind).1 } : Epic) =
          { ep'.bare with frameSets := ep'.frameSets.set ref (v.addIndicator ind).1 }
        rw [d.bare]
  | register e =>
    dsimp only at hx hy
    subst hx hy
    have hE : c.E e = true := hfit rfl
    obtain ⟨st, st', o1, o2, -, -, -, -, o7, o8⟩ := hr.own
    simp only [Spec.doStep, World.exec, World.addStrategy]
    rcases hr.epics e hE with ⟨a, b⟩ | ⟨ep, ep', a, b, d⟩
    · rw [a, b]; exact h
    · rw [a, b, o1, o2]
      dsimp only
      rw [o7, o8]
      have hh := d.has
      rcases g : ep.strategies.get? c.r with _ | v
      · rcases g' : ep'.strategies.get? c.r' with _ | v'
        · dsimp only
          have hlt : c.s < c.n := by rw [← hr.size]; exact (List.getElem?_eq_some_iff.mp o1).1
          have hlt' : c.s' < c.n' := by rw [← hr.size']; exact (List.getElem?_eq_some_iff.mp o2).1
          have h1 := company_epics (x := { ep with strategies := ep.strategies.set c.r c.s })
            (x' := { ep' with strategies := ep'.strategies.set c.r' c.s' }) h hE a b rfl rfl (d.register hlt hlt' g g') w.log w'.log
          have m1 : w.epics.modify e (fun ep => { ep with strategies := ep.strategies.set c.r c.s }) =
            w.epics.set e { ep with strategies := ep.strategies.set c.r c.s } := (set_eq_modify _ _ _ _ a).symm
          have m2 : w'.epics.modify e (fun ep => { ep with strategies := ep.strategies.set c.r' c.s' }) =
            w'.epics.set e { ep' with strategies := ep'.strategies.set c.r' c.s' } := (set_eq_modify _ _ _ _ b).symm
          rw [← m1, ← m2] at h1
          exact company_linked h1 _ _ (fun _ => ⟨rfl, rfl, rfl, rfl⟩) (fun _ => ⟨rfl, rfl, rfl, rfl⟩)
        · rw [g, g'] at hh; cases hh
      · rcases g' : ep'.strategies.get? c.r' with _ | v'
        · rw [g, g'] at hh; cases hh
        · exact h
  | act a =>
    dsimp only at hx hy
    subst hx hy
    simp only [Spec.doStep]
    rcases company_act h a (hfit rfl) with ⟨a1, a2⟩ | ⟨o, o', a1, a2, -, a4⟩
    · rw [a1, a2]; exact h
    · rw [a1, a2]; exact a4

theorem company_apart (hp : Spec.Plays obs env c.s code) {w w' : World} (h : Company c w w') (x : Spec.Step)
    (hx : Spec.sharedIn c.E c.s x = none) :
    Company c (Spec.doStep env w x) w' := by
  have hno : ∀ {e : ℕ} {z : Spec.Shared}, (if c.E e = true then some z else none) = none → c.E e = false := by
    intro e z hz
    by_cases hE : c.E e = true
    · rw [if_pos hE] at hz; cases hz
    · simpa using hE
  cases x with
  | tick e k => exact stranger_tick hp h (hno hx) k
  | addFrameSet e ref fs =>
    have hE := hno hx
    obtain ⟨L, L', hr⟩ := h.rel
    simp only [Spec.doStep, World.exec, World.addFrameSet]
    rcases he : w.epics[e]? with _ | ep
    · exact h
    · dsimp only
      rcases ha : ep.addFrameSet ref fs with err | v
      · exact h
      · obtain ⟨k1, k2⟩ := (addFrameSet_bare ep ref fs).2 v ha
        exact company_elsewhere h hE he k2 (by rw [k1]; exact hr.apart.none e ep hE he) w.log
  | addIndicator e ref ind =>
    have hE := hno hx
    obtain ⟨L, L', hr⟩ := h.rel
    simp only [Spec.doStep, World.exec, World.addIndicator]
    rcases he : w.epics[e]? with _ | ep
    · exact h
    · dsimp only
      split
      · exact h
      · rename_i v _
        exact company_elsewhere (x := { ep with frameSets := ep.frameSets.set ref (v.addIndicator ind).1 }) h hE he rfl
          (hr.apart.none e ep hE he) w.log
  | addStrategy e s1 =>
    have hne : s1 ≠ c.s := by
      intro hs
      simp [Spec.sharedIn, hs] at hx
    obtain ⟨L, L', hr⟩ := h.rel
    simp only [Spec.doStep, World.exec, World.addStrategy]
    rcases he : w.epics[e]? with _ | ep
    · exact h
    · rcases hst : w.strategies[s1]? with _ | st
      · exact h
      · dsimp only
        rcases g : ep.strategies.get? st.ref with _ | v
        · dsimp only
          have hlt : s1 < c.n := by rw [← hr.size]; exact (List.getElem?_eq_some_iff.mp hst).1
          have hrn : st.ref ≠ c.r := fun hc => hne (hr.uniq s1 (by rw [List.getElem?_map, hst, ← hc]; rfl))
          have m1 : w.epics.modify e (fun ep => { ep with strategies := ep.strategies.set st.ref s1 }) =
            w.epics.set e { ep with strategies := ep.strategies.set st.ref s1 } := (set_eq_modify _ _ _ _ he).symm
          have h1 : Company c { w with epics := w.epics.set e { ep with strategies := ep.strategies.set st.ref s1 } } w' := by
            by_cases hE : c.E e = true
            · rcases hr.epics e hE with ⟨a, b⟩ | ⟨fp, ep', a, b, d⟩
              · rw [he] at a; cases a
              · rw [he] at a
                injection a with a
                subst a
                have h2 := company_epics (x := { ep with strategies := ep.strategies.set st.ref s1 }) (x' := ep') h hE he b rfl rfl
                  (d.other hrn hne hlt g) w.log w'.log
                have m2 : w'.epics.set e ep' = w'.epics := by
                  obtain ⟨hl, hv⟩ := List.getElem?_eq_some_iff.mp b
                  rw [← hv]; exact List.set_getElem_self hl
                rw [m2] at h2
                exact h2
            · have hE' : c.E e = false := by simpa using hE
              refine company_elsewhere (x := { ep with strategies := ep.strategies.set st.ref s1 }) h hE' he rfl ?_ w.log
              have h3 := hr.apart.none e ep hE' he
              show c.s ∉ (ep.strategies.set st.ref s1).map Prod.snd
              rw [Dict.set_new _ _ _ g, List.map_append, List.mem_append]
              rintro (hm | hm)
              · exact h3 hm
              · rw [List.map_singleton, List.mem_singleton] at hm
                exact hne hm.symm
          rw [← m1] at h1
          exact h1.left (.single (.prim (.strat s1 _ (fun _ => ⟨rfl, rfl⟩)))) (fun _ _ => keepsOwn_modStrategy hne _ _ _ (fun _ => rfl))
        · exact h
  | act s1 a =>
    have hne : s1 ≠ c.s := by
      intro hs
      simp [Spec.sharedIn, hs] at hx
    simp only [Spec.doStep]
    rcases ho : Spec.op s1 w a with _ | o
    · exact h
    · exact h.left (step_steps h.ok (fun v => v.elim)).lift (fun st hst => keepsOwn_act hne h.reg hst a ho)
  | nobody e d q =>
    exact h.left (step_steps h.ok (fun v => v.elim)).lift (fun st hst => keepsOwn_open h.reg hst e none (by simp) d q)
  | thread p i st =>
    exact h.left (step_steps h.ok (o := .thread p i st) (fun v => v.elim)).lift (fun _ _ => keepsOwn_thread _ _ _ _ _ _)

theorem company_run (ho : ∀ w w', Company c w w' → obs w = obs' w') (hw : ∀ cb e v, c.E e = true → (code cb e v).Within c.E)
    (hp : Spec.Plays obs env c.s code) (hp' : Spec.Plays obs' env' c.s' code) (l : List Spec.Step) : ∀ (l' : List Spec.Step) (w w' : World),
    (∀ x ∈ l, Spec.Fits c.E c.s x) → l.filterMap (Spec.sharedIn c.E c.s) = l'.filterMap (Spec.sharedIn c.E c.s') → Company c w w' →
    Company c (Spec.doSteps env w l) (Spec.doSteps env' w' l') := by
  have right : ∀ (l' : List Spec.Step) (w w' : World), l'.filterMap (Spec.sharedIn c.E c.s') = [] → Company c w w' →
      Company c w (Spec.doSteps env' w' l') := by
    intro l'
    induction l' with
    | nil => intro w w' _ h; exact h
    | cons y rest ih =>
      intro w w' hf h
      rw [List.filterMap_eq_nil_iff] at hf
      exact ih _ _ (List.filterMap_eq_nil_iff.mpr fun a ha => hf a (by simp [ha]))
        (company_apart (c := c.swap) hp' h.swap y (hf y (by simp))).swap
  induction l with
  | nil => intro l' w w' _ hf h; exact right l' w w' hf.symm h
  | cons x rest ih =>
    intro l' w w' hfit hf h
    rcases hx : Spec.sharedIn c.E c.s x with _ | z
    · rw [List.filterMap_cons_none hx] at hf
      exact ih l' _ w' (fun a ha => hfit a (by simp [ha])) hf (company_apart hp h x hx)
    · rw [List.filterMap_cons_some hx] at hf
      obtain ⟨pre, y, post, rfl, h1, h2, h3⟩ := List.filterMap_eq_cons_iff.mp hf.symm
      have hr := right pre w w' (List.filterMap_eq_nil_iff.mpr h1) h
      have : Spec.doSteps env' w' (pre ++ y :: post) = Spec.doSteps env' (Spec.doStep env' (Spec.doSteps env' w' pre) y) post := by
        unfold Spec.doSteps
        rw [List.foldl_append]
        rfl
      rw [this]
      exact ih post _ _ (fun a ha => hfit a (by simp [ha])) h3.symm (company_shared ho hw hp hp' hr hx h2 (hfit x (by simp)))

end

/-- Two fresh systems. -/
theorem company_start {w w' : World} (h : w.Init) (h' : w'.Init) (E : ℕ → Bool) (he : ∀ e, E e = true → w.epics[e]? = w'.epics[e]?)
    (hk : ∀ (e : ℕ) ep, E e = true → w.epics[e]? = some ep →
      (w.providers[ep.provider]?).map Provider.kind = (w'.providers[ep.provider]?).map Provider.kind)
    (hsep : ∀ (e f : ℕ) ep fp, E e = true → E f = false → w.epics[e]? = some ep → w.epics[f]? = some fp → fp.provider ≠ ep.provider)
    (hsep' : ∀ (e f : ℕ) ep fp, E e = true → E f = false → w'.epics[e]? = some ep → w'.epics[f]? = some fp → fp.provider ≠ ep.provider)
    {s s' : ℕ} {st st' : Strategy} (hs : w.strategies[s]? = some st)
    (hs' : w'.strategies[s']? = some st') (hu : ∀ i x, w.strategies[i]? = some x → x.ref = st.ref → i = s)
    (hu' : ∀ i x, w'.strategies[i]? = some x → x.ref = st'.ref → i = s') :
    Company ⟨s, s', st.ref, st'.ref, w.strategies.length, w'.strategies.length, E⟩ w w' := by
  obtain ⟨r, hr⟩ := h.strategies st (List.mem_of_getElem? hs)
  obtain ⟨r', hr'⟩ := h'.strategies st' (List.mem_of_getElem? hs')
  have hn : ∀ (l : List Epic) (x : ℕ), (∀ ep ∈ l, ∃ ref z o c td hd p, ep = Epic.new ref z o c td hd p) → ∀ (f : ℕ) fp, E f = false → l[f]? = some fp →
      x ∉ fp.strategies.map Prod.snd := by
    intro l x hl f fp _ hf
    obtain ⟨_, _, _, _, _, _, _, rfl⟩ := hl fp (List.mem_of_getElem? hf)
    simp [Epic.new]
  have hw : ∀ ep ∈ w.epics, ∃ ref z o c td hd p, ep = Epic.new ref z o c td hd p := fun ep hm => by
    obtain ⟨a1, a2, a3, a4, a5, a6, a7, -, a8⟩ := h.epics ep hm
    exact ⟨a1, a2, a3, a4, a5, a6, a7, a8⟩
  have hw' : ∀ ep ∈ w'.epics, ∃ ref z o c td hd p, ep = Epic.new ref z o c td hd p := fun ep hm => by
    obtain ⟨a1, a2, a3, a4, a5, a6, a7, -, a8⟩ := h'.epics ep hm
    exact ⟨a1, a2, a3, a4, a5, a6, a7, a8⟩
  refine ⟨Init.regInv h, Init.regInv h', Init.epicsOk h, Init.epicsOk h', [], [], ?_, ?_, ⟨hn _ _ hw, hsep⟩, ⟨hn _ _ hw', hsep'⟩, rfl, rfl, ?_, ?_,
    ⟨st, st', hs, hs', by rw [hr]; rfl, by rw [hr']; rfl, by rw [hr, hr']; rfl, by rw [hr, hr']; rfl, rfl, rfl⟩, rfl, List.nodup_nil, List.nodup_nil, ?_⟩
  · intro e hE
    rw [← he e hE]
    rcases hep : w.epics[e]? with _ | ep
    · exact .inl ⟨rfl, rfl⟩
    · obtain ⟨_, _, _, _, _, _, _, _, rfl⟩ := h.epics ep (List.mem_of_getElem? hep)
      exact .inr ⟨_, _, rfl, rfl, rfl, rfl, rfl, fun x hx => by simp [Epic.new] at hx, fun x hx => by simp [Epic.new] at hx⟩
  · intro e ep hE hep
    rw [List.getElem?_map, List.getElem?_map]
    exact hk e ep hE hep
  · intro i hi
    rw [List.getElem?_map, Option.map_eq_some_iff] at hi
    obtain ⟨x, a, b⟩ := hi
    exact hu i x a b
  · intro i hi
    rw [List.getElem?_map, Option.map_eq_some_iff] at hi
    obtain ⟨x, a, b⟩ := hi
    exact hu' i x a b
  · rintro i j ⟨n, a, -⟩
    simp at a

/-- **C113**: a strategy in two systems with the same epics and the same kinds of providers. The number of the other strategies, their
references, their registrations, their order and what they do may differ, and so may the position and the reference of the strategy itself;
only its reference is its own and the others let no exception out. If the strategy runs the same code, and ticks, frame sets, indicators,
its registrations and what the main program does for it are the same, then it sees the same in both systems; and a further tick raises in both,
with the same exception, or in neither. -/
theorem C113_company {w w' : World} (h : w.Init) (h' : w'.Init) (he : w.epics = w'.epics)
    (hk : w.providers.map Provider.kind = w'.providers.map Provider.kind) {s s' : ℕ} {st st' : Strategy} (hs : w.strategies[s]? = some st)
    (hs' : w'.strategies[s']? = some st') (hu : ∀ i x, w.strategies[i]? = some x → x.ref = st.ref → i = s)
    (hu' : ∀ i x, w'.strategies[i]? = some x → x.ref = st'.ref → i = s') {env env' : Env} {code : Cb → ℕ → Spec.View → Spec.Code Spec.View}
    (hp : Spec.Plays (Spec.look s) env s code) (hp' : Spec.Plays (Spec.look s') env' s' code) {l l' : List Spec.Step}
    (hl : l.filterMap (Spec.shared s) = l'.filterMap (Spec.shared s')) :
    Spec.look s (Spec.doSteps env w l) = Spec.look s' (Spec.doSteps env' w' l') ∧
    ∀ e k, ((Spec.doSteps env w l).onNewTick env e k).2 = ((Spec.doSteps env' w' l').onNewTick env' e k).2 := by
  have h0 := company_start h h' (fun _ => true) (fun e _ => by rw [he])
    (fun e ep _ _ => by rw [← List.getElem?_map, ← List.getElem?_map, hk]) (fun _ _ _ _ _ hc => by cases hc)
    (fun _ _ _ _ _ hc => by cases hc) hs hs' hu hu'
  have ho : ∀ u u', Company ⟨s, s', st.ref, st'.ref, w.strategies.length, w'.strategies.length, fun _ => true⟩ u u' →
    Spec.look s u = Spec.look s' u' := fun u u' hc => hc.look (fun _ => rfl)
  have h1 := company_run ho (fun _ _ _ _ => within_all _) hp hp' l l' w w'
    (fun x _ => fits_all s x)
    (by simp only [sharedIn_all]; exact hl) h0
  exact ⟨ho _ _ h1, fun e k => (company_tick ho (fun _ _ _ _ => within_all _) hp hp' h1 e rfl k).1⟩

/-- **C114**: a strategy that deals with the epics `es` only (it is registered with them, opens and closes on them and looks at them), in two
systems that have these epics in common, with providers of the same kinds that no other epic has. The other epics and their number, their ticks,
frame sets, indicators, providers, all other strategies, what they do there and here, may differ: the strategy sees the same. -/
theorem C114_markets {w w' : World} (h : w.Init) (h' : w'.Init) (es : List ℕ) (he : ∀ e ∈ es, w.epics[e]? = w'.epics[e]?)
    (hk : ∀ e ∈ es, ∀ ep, w.epics[e]? = some ep → (w.providers[ep.provider]?).map Provider.kind = (w'.providers[ep.provider]?).map Provider.kind)
    (hsep : ∀ e ∈ es, ∀ f ∉ es, ∀ ep fp, w.epics[e]? = some ep → w.epics[f]? = some fp → fp.provider ≠ ep.provider)
    (hsep' : ∀ e ∈ es, ∀ f ∉ es, ∀ ep fp, w'.epics[e]? = some ep → w'.epics[f]? = some fp → fp.provider ≠ ep.provider)
    {s s' : ℕ} {st st' : Strategy} (hs : w.strategies[s]? = some st) (hs' : w'.strategies[s']? = some st')
    (hu : ∀ i x, w.strategies[i]? = some x → x.ref = st.ref → i = s) (hu' : ∀ i x, w'.strategies[i]? = some x → x.ref = st'.ref → i = s')
    {env env' : Env} {code : Cb → ℕ → Spec.View → Spec.Code Spec.View} (hc : ∀ cb, ∀ e ∈ es, ∀ v, (code cb e v).Within (fun e => decide (e ∈ es)))
    (hp : Spec.Plays (Spec.glance es s) env s code) (hp' : Spec.Plays (Spec.glance es s') env' s' code) {l l' : List Spec.Step}
    (hf : ∀ x ∈ l, Spec.Fits (fun e => decide (e ∈ es)) s x)
    (hl : l.filterMap (Spec.sharedIn (fun e => decide (e ∈ es)) s) = l'.filterMap (Spec.sharedIn (fun e => decide (e ∈ es)) s')) :
    Spec.glance es s (Spec.doSteps env w l) = Spec.glance es s' (Spec.doSteps env' w' l') ∧
    ∀ e ∈ es, ∀ k, ((Spec.doSteps env w l).onNewTick env e k).2 = ((Spec.doSteps env' w' l').onNewTick env' e k).2 := by
  have h0 := company_start h h' (fun e => decide (e ∈ es)) (fun e hE => he e (of_decide_eq_true hE))
    (fun e ep hE hep => hk e (of_decide_eq_true hE) ep hep)
    (fun e f ep fp hE hF => hsep e (of_decide_eq_true hE) f (of_decide_eq_false hF) ep fp)
    (fun e f ep fp hE hF => hsep' e (of_decide_eq_true hE) f (of_decide_eq_false hF) ep fp) hs hs' hu hu'
  have ho : ∀ u u', Company ⟨s, s', st.ref, st'.ref, w.strategies.length, w'.strategies.length, fun e => decide (e ∈ es)⟩ u u' →
    Spec.glance es s u = Spec.glance es s' u' := fun u u' hc => hc.glance (fun _ hm => decide_eq_true hm)
  have hw : ∀ cb e v, decide (e ∈ es) = true → (code cb e v).Within (fun e => decide (e ∈ es)) := fun cb e v hE => hc cb e (of_decide_eq_true hE) v
  have h1 := company_run ho hw hp hp' l l' w w' hf hl h0
  exact ⟨ho _ _ h1, fun e hm k => (company_tick ho hw hp hp' h1 e (decide_eq_true hm) k).1⟩

/-- C113: result and profit factor of the strategy are functions of what it sees. -/
theorem C113_result {w : World} {s : ℕ} {st : Strategy} (hs : w.strategies[s]? = some st) :
    strategyResult (st.trades.filterMap (fun i => w.trades[i]?)) .none = strategyResult (Spec.look s w).trades .none ∧
    profitFactor (st.trades.filterMap (fun i => w.trades[i]?)) .none = profitFactor (Spec.look s w).trades .none := by
  have hv : (Spec.look s w).trades = (st.trades.filterMap (fun i => w.trades[i]?)).map Trade.anon := by
    unfold Spec.look
    rw [hs]
    dsimp only
    rw [List.map_filterMap]
  have hm : ∀ l : List Trade, (l.map Trade.anon).map Trade.result = l.map Trade.result := by
    intro l
    rw [List.map_map]
    exact List.map_congr_left (fun t _ => anon_result t)
  have hp : ∀ l : List Trade, pfSums (l.map Trade.anon) = pfSums l := by
    intro l
    unfold pfSums
    rw [List.foldl_map]
    simp only [anon_result]
  rw [hv]
  constructor
  · simp only [strategyResult, TradesArg.resolve, hm]
  · have key : ∀ a b : List Trade, pfSums a = pfSums b → profitFactor a .none = profitFactor b .none := by
      intro a b h
      have h' : pfSums (TradesArg.none.resolve a) = pfSums (TradesArg.none.resolve b) := h
      unfold profitFactor
      simp only [h']
    exact key _ _ (hp _).symm

theorem filterMap_steps {E : ℕ → Bool} {s : ℕ} (l : List Spec.Step) :
    (l.filter (fun x => (Spec.sharedIn E s x).isSome)).filterMap (Spec.sharedIn E s) = l.filterMap (Spec.sharedIn E s) := by
  induction l with
  | nil => rfl
  | cons x l ih =>
    rcases hx : Spec.sharedIn E s x with _ | z
    · rw [List.filter_cons_of_neg (by simp [hx]), ih, List.filterMap_cons_none hx]
    · rw [List.filter_cons_of_pos (by simp [hx]), List.filterMap_cons_some hx, List.filterMap_cons_some hx, ih]

/-- C114, without the noise: the strategy sees the same if the steps that mean nothing to it (ticks, frame sets and indicators of the other epics, registrations
and acts of other strategies, trades of nobody and request threads) are left out and the other strategies do anything else, say nothing. -/
theorem C114_alone {w : World} (h : w.Init) (es : List ℕ)
    (hsep : ∀ e ∈ es, ∀ f ∉ es, ∀ ep fp, w.epics[e]? = some ep → w.epics[f]? = some fp → fp.provider ≠ ep.provider)
    {s : ℕ} {st : Strategy} (hs : w.strategies[s]? = some st) (hu : ∀ i x, w.strategies[i]? = some x → x.ref = st.ref → i = s)
    {env env' : Env} {code : Cb → ℕ → Spec.View → Spec.Code Spec.View} (hc : ∀ cb, ∀ e ∈ es, ∀ v, (code cb e v).Within (fun e => decide (e ∈ es)))
    (hp : Spec.Plays (Spec.glance es s) env s code) (hp' : Spec.Plays (Spec.glance es s) env' s code) {l : List Spec.Step}
    (hf : ∀ x ∈ l, Spec.Fits (fun e => decide (e ∈ es)) s x) :
    Spec.glance es s (Spec.doSteps env w l) =
      Spec.glance es s (Spec.doSteps env' w (l.filter (fun x => (Spec.sharedIn (fun e => decide (e ∈ es)) s x).isSome))) :=
  (C114_markets h h es (fun _ _ => rfl) (fun _ _ _ _ => rfl) hsep hsep hs hs hu hu hc hp hp' hf (filterMap_steps l).symm).1

/-- C114: result and profit factor of the strategy are functions of what it sees. -/
theorem C114_result {w : World} {s : ℕ} {st : Strategy} (es : List ℕ) (hs : w.strategies[s]? = some st) :
    strategyResult (st.trades.filterMap (fun i => w.trades[i]?)) .none = strategyResult (Spec.glance es s w).trades .none ∧
    profitFactor (st.trades.filterMap (fun i => w.trades[i]?)) .none = profitFactor (Spec.glance es s w).trades .none := by
  have : (Spec.glance es s w).trades = (Spec.look s w).trades := by
    unfold Spec.glance Spec.look
    rw [hs]
  rw [this]
  exact C113_result hs

/-! ## Strategies that run the same code -/

/-- Code that looks at `obs` of the world, as code that looks at the world. -/
def Spec.Code.lift {α : Type} (obs : World → α) : Spec.Code α → Spec.Code World
  | .done => .done
  | .raise e => .raise e
  | .act a k => .act a (fun w e => (k (obs w) e).lift obs)

theorem lift_calm {α : Type} (obs : World → α) (d : Spec.Code α) : d.Calm → (d.lift obs).Calm := by
  induction d with
  | done => intro _; trivial
  | raise e => intro h; exact h
  | act a k ih => intro h w e; exact ih _ _ (h _ _)

theorem play_lift {α : Type} (obs : World → α) (s : ℕ) (d : Spec.Code α) : ∀ w, Spec.play obs s d w = Spec.play id s (d.lift obs) w := by
  induction d with
  | done => intro w; rfl
  | raise e => intro w; rfl
  | act a k ih =>
    intro w
    simp only [Spec.play, Spec.Code.lift]
    rcases Spec.op s w a with _ | o
    · exact ih _ _ w
    · simp only [Prog.act.injEq, true_and]
      funext u e
      exact ih _ _ u

/-- Spec: every strategy runs code of its own on what it sees. -/
def Spec.ensemble (code : ℕ → Cb → ℕ → Spec.View → Spec.Code Spec.View) : Env :=
  fun s cb e w => Spec.play (Spec.look s) s (code s cb e (Spec.look s w)) w

/-- Spec: every strategy runs code of its own on what it sees of the epics `es`. -/
def Spec.ensembleOn (es : ℕ → List ℕ) (code : ℕ → Cb → ℕ → Spec.View → Spec.Code Spec.View) : Env :=
  fun s cb e w => Spec.play (Spec.glance (es s) s) s (code s cb e (Spec.glance (es s) s w)) w

theorem ensemble_plays {code : ℕ → Cb → ℕ → Spec.View → Spec.Code Spec.View} (s : ℕ) (hc : ∀ s1, s1 ≠ s → ∀ cb e v, (code s1 cb e v).Calm) :
    Spec.Plays (Spec.look s) (Spec.ensemble code) s (code s) :=
  ⟨fun _ _ _ => rfl, fun s1 hne cb e w => ⟨_, lift_calm (Spec.look s1) _ (hc s1 hne cb e _), play_lift _ _ _ w⟩⟩

theorem ensembleOn_plays {es : ℕ → List ℕ} {code : ℕ → Cb → ℕ → Spec.View → Spec.Code Spec.View} (s : ℕ)
    (hc : ∀ s1, s1 ≠ s → ∀ cb e v, (code s1 cb e v).Calm) : Spec.Plays (Spec.glance (es s) s) (Spec.ensembleOn es code) s (code s) :=
  ⟨fun _ _ _ => rfl, fun s1 hne cb e w => ⟨_, lift_calm (Spec.glance (es s1) s1) _ (hc s1 hne cb e _), play_lift _ _ _ w⟩⟩

/-- **C113**: two strategies of one system that run the same code without letting exceptions out, registered with the same epics between the same
ticks, see the same at the end of every run in which the main program does the same for both: their order in the dictionaries of the epics
gives neither of them an advantage. -/
theorem C113_twins {w : World} (h : w.Init) {s s' : ℕ} {st st' : Strategy} (hs : w.strategies[s]? = some st) (hs' : w.strategies[s']? = some st')
    (hu : ∀ i x, w.strategies[i]? = some x → x.ref = st.ref → i = s) (hu' : ∀ i x, w.strategies[i]? = some x → x.ref = st'.ref → i = s')
    {code : ℕ → Cb → ℕ → Spec.View → Spec.Code Spec.View} (hc : ∀ s1 cb e v, (code s1 cb e v).Calm) (hcode : code s = code s') {l : List Spec.Step}
    (hl : l.filterMap (Spec.shared s) = l.filterMap (Spec.shared s')) :
    Spec.look s (Spec.doSteps (Spec.ensemble code) w l) = Spec.look s' (Spec.doSteps (Spec.ensemble code) w l) :=
  (C113_company h h rfl rfl hs hs' hu hu' (ensemble_plays s (fun s1 _ => hc s1)) (hcode ▸ ensemble_plays s' (fun s1 _ => hc s1)) hl).1

end

/-! ## Concrete cases -/

/-- The strategy alone, under another reference. -/
def Demo.alone : World := { Demo.world with strategies := [Strategy.new "solo"] }

/-- Its program: registration and ticks. -/
def Demo.soloSteps : List Spec.Step := [.addStrategy 0 0, .tick 0 (Demo.tk 480 10 12), .tick 0 (Demo.tk 481 11 13), .tick 0 (Demo.tk 482 14 16)]

/-- In company: strategy 1 runs the plan, strategy 0 is before it in the dictionary, sells 5 at every tick of an open market and closes 2 of its
first trade. -/
def Demo.crowd : ℕ → Cb → ℕ → Spec.View → Spec.Code Spec.View := fun s cb e v =>
  if s = 1 then Demo.plan cb e v
  else if cb = .everyTickOpen then .act (.open e (some .sell) 5) (fun _ _ => .act (.close e 0 (some 2)) (fun _ _ => .done)) else .done

theorem Demo.crowd_calm (s : ℕ) (cb : Cb) (e : ℕ) (v : Spec.View) : (Demo.crowd s cb e v).Calm := by
  unfold Demo.crowd Demo.plan
  split_ifs
  · exact fun _ _ => trivial
  · exact fun _ _ => trivial
  · trivial
  · exact fun _ _ _ _ => trivial
  · trivial

/-- The hypotheses of C113_company. -/
example : letI := Arith.exact
    Spec.look 1 (Spec.doSteps (Spec.ensemble Demo.crowd) Demo.world Demo.steps') =
      Spec.look 0 (Spec.doSteps (Spec.ensemble (fun _ => Demo.plan)) Demo.alone Demo.soloSteps) := by
  letI := Arith.exact
  refine And.left (C113_company (w := Demo.world) (w' := Demo.alone) (code := Demo.plan) (st := Strategy.new "S1") (st' := Strategy.new "solo") Demo.world_init ?_ rfl rfl rfl rfl ?_ ?_
    (ensemble_plays (code := Demo.crowd) 1 (fun s _ => Demo.crowd_calm s)) (ensemble_plays (code := fun _ => Demo.plan) 0 ?_) ?_)
  rotate_right
  · rfl
  · exact ⟨Demo.world_init.epics, fun x hx => ⟨"solo", by simpa [Demo.alone] using hx⟩, Demo.world_init.providers, rfl, rfl⟩
  · intro i x hi hx
    match i with
    | 0 => injection hi with hi; subst hi; exact absurd hx (by decide)
    | 1 => rfl
    | n + 2 => cases hi
  · intro i x hi hx
    match i with
    | 0 => rfl
    | n + 1 => cases hi
  · intro s1 _ cb e v
    exact Demo.crowd_calm 1 cb e v

/-- In that case it holds one trade, bought 2 at 12, closed at 11 and 14; the provider has six trades in company and one without. -/
example : letI := Arith.exact
    ((Spec.look 1 (Spec.doSteps (Spec.ensemble Demo.crowd) Demo.world Demo.steps')).trades.map Trade.result = [1]) ∧
    ((Spec.doSteps (Spec.ensemble Demo.crowd) Demo.world Demo.steps').providers.map (fun p => p.trades.length) = [6]) ∧
    ((Spec.doSteps (Spec.ensemble (fun _ => Demo.plan)) Demo.alone Demo.soloSteps).providers.map (fun p => p.trades.length) = [1]) := by
  refine ⟨?_, ?_, ?_⟩ <;> decide +kernel

/-- The hypotheses of C113_twins: both strategies of the demonstration run the plan, and each of them opens a trade of its own. -/
example : letI := Arith.exact
    Spec.look 0 (Spec.doSteps (Spec.ensemble (fun _ => Demo.plan)) Demo.world Demo.steps) =
      Spec.look 1 (Spec.doSteps (Spec.ensemble (fun _ => Demo.plan)) Demo.world Demo.steps) := by
  letI := Arith.exact
  refine C113_twins (st := Strategy.new "S0") (st' := Strategy.new "S1") Demo.world_init rfl rfl ?_ ?_ (fun _ => Demo.crowd_calm 1) rfl rfl
  · intro i x hi hx
    match i with
    | 0 => rfl
    | 1 => injection hi with hi; subst hi; exact absurd hx (by decide)
    | n + 2 => cases hi
  · intro i x hi hx
    match i with
    | 0 => injection hi with hi; subst hi; exact absurd hx (by decide)
    | 1 => rfl
    | n + 2 => cases hi

example : letI := Arith.exact
    (Spec.doSteps (Spec.ensemble (fun _ => Demo.plan)) Demo.world Demo.steps).strategies.map Strategy.trades = [[0], [1]] := by
  decide +kernel

/-- Two epics, each with a provider of its own, and two strategies. -/
def Demo.split : World := { Demo.world with
  epics := [Epic.new "E0" Zone.utc (8 * hourUs) (16 * hourUs) [] [] 0, Epic.new "E1" Zone.utc 0 (23 * hourUs) [] [] 1]
  providers := [Provider.new .backtests, Provider.new .custom] }

/-- The first epic, its provider and the strategy. -/
def Demo.soleEpic : World := ⟨[Epic.new "E0" Zone.utc (8 * hourUs) (16 * hourUs) [] [] 0], [Strategy.new "solo"], [Provider.new .backtests], [], []⟩

/-- Strategy 0 trades on both epics, strategy 1 on the first one. -/
def Demo.splitSteps : List Spec.Step := [.addStrategy 0 0, .addStrategy 1 0, .addStrategy 0 1, .tick 1 (Demo.tk 479 70 71),
  .tick 0 (Demo.tk 480 10 12), .tick 1 (Demo.tk 481 72 73), .act 0 (.open 1 (some .buy) 3), .tick 0 (Demo.tk 481 11 13),
  .tick 1 (Demo.tk 482 60 61), .tick 0 (Demo.tk 482 14 16)]

theorem Demo.split_init : Demo.split.Init := by
  refine ⟨?_, Demo.world_init.strategies, ?_, rfl, rfl⟩
  · intro e he
    simp only [Demo.split, List.mem_cons, List.not_mem_nil, or_false] at he
    rcases he with rfl | rfl
    · exact ⟨_, _, _, _, _, _, 0, by decide, rfl⟩
    · exact ⟨_, _, _, _, _, _, 1, by decide, rfl⟩
  · intro p hp
    simp only [Demo.split, List.mem_cons, List.not_mem_nil, or_false] at hp
    rcases hp with rfl | rfl
    · exact ⟨_, rfl⟩
    · exact ⟨_, rfl⟩

theorem Demo.soleEpic_init : Demo.soleEpic.Init := by
  refine ⟨?_, ?_, ?_, rfl, rfl⟩
  · intro e he
    simp only [Demo.soleEpic, List.mem_cons, List.not_mem_nil, or_false] at he
    subst he
    exact ⟨_, _, _, _, _, _, 0, by decide, rfl⟩
  · intro x hx
    exact ⟨"solo", by simpa [Demo.soleEpic] using hx⟩
  · intro p hp
    exact ⟨_, by simpa [Demo.soleEpic] using hp⟩

/-- The hypotheses of C114_markets. -/
example : letI := Arith.exact
    Spec.glance [0] 1 (Spec.doSteps (Spec.ensembleOn (fun s => if s = 1 then [0] else [0, 1]) Demo.crowd) Demo.split Demo.splitSteps) =
      Spec.glance [0] 0 (Spec.doSteps (Spec.ensembleOn (fun _ => [0]) (fun _ => Demo.plan)) Demo.soleEpic Demo.soloSteps) := by
  letI := Arith.exact
  refine And.left (C114_markets (w := Demo.split) (w' := Demo.soleEpic) (code := Demo.plan) (st := Strategy.new "S1") (st' := Strategy.new "solo")
    Demo.split_init Demo.soleEpic_init [0] ?_ ?_ ?_ ?_ rfl rfl ?_ ?_ ?_
    (ensembleOn_plays (es := fun s => if s = 1 then [0] else [0, 1]) (code := Demo.crowd) 1 (fun s _ => Demo.crowd_calm s))
    (ensembleOn_plays (es := fun _ => [0]) (code := fun _ => Demo.plan) 0 ?_) ?_ ?_)
  · intro e he
    rw [List.mem_singleton.mp he]; rfl
  · intro e he ep hep
    rw [List.mem_singleton.mp he] at hep
    injection hep with hep
    subst hep
    rfl
  · intro e he f hf ep fp h1 h2
    rw [List.mem_singleton.mp he] at h1
    injection h1 with h1
    subst h1
    match f with
    | 0 => exact absurd (List.mem_singleton.mpr rfl) hf
    | 1 => injection h2 with h2; subst h2; decide
    | n + 2 => cases h2
  · intro e he f hf ep fp h1 h2
    match f with
    | 0 => exact absurd (List.mem_singleton.mpr rfl) hf
    | n + 1 => cases h2
  · intro i x hi hx
    match i with
    | 0 => injection hi with hi; subst hi; exact absurd hx (by decide)
    | 1 => rfl
    | n + 2 => cases hi
  · intro i x hi hx
    match i with
    | 0 => rfl
    | n + 1 => cases hi
  · intro cb e he v
    unfold Demo.plan
    split_ifs
    · exact ⟨decide_eq_true he, fun _ _ => trivial⟩
    · exact ⟨decide_eq_true he, fun _ _ => trivial⟩
    · trivial
  · intro s1 _ cb e v
    exact Demo.crowd_calm 1 cb e v
  · intro x hx
    simp only [Demo.splitSteps, List.mem_cons, List.not_mem_nil, or_false] at hx
    rcases hx with rfl | rfl | rfl | rfl | rfl | rfl | rfl | rfl | rfl | rfl <;> first
      | trivial
      | (intro hc; exact absurd hc (by decide))
      | (intro _; rfl)
  · rfl

/-- What C114_alone keeps of these steps. -/
example : Demo.splitSteps.filter (fun x => (Spec.sharedIn (fun e => decide (e ∈ [0])) 1 x).isSome) =
    [.addStrategy 0 1, .tick 0 (Demo.tk 480 10 12), .tick 0 (Demo.tk 481 11 13), .tick 0 (Demo.tk 482 14 16)] := rfl

/-- In that case the trade is closed with a result of 1, while the other strategy has trades on both epics. -/
example : letI := Arith.exact
    let w := Spec.doSteps (Spec.ensembleOn (fun s => if s = 1 then [0] else [0, 1]) Demo.crowd) Demo.split Demo.splitSteps
    ((Spec.glance [0] 1 w).trades.map Trade.result = [1]) ∧ (w.providers.map (fun p => p.trades.length) = [4, 4]) := by
  refine ⟨?_, ?_⟩ <;> decide +kernel

/-- Epics that share a provider do matter: a tick of the second epic gives a trade of the first one another result. -/
theorem C114_shared_false : letI := Arith.exact
    let env := Spec.ensembleOn (fun _ => [0]) (fun _ => Demo.plan)
    let l : List Spec.Step := [.addStrategy 0 1, .tick 0 (Demo.tk 480 10 12)]
    (Spec.glance [0] 1 (Spec.doSteps env Demo.world l)).trades.map Trade.result = [-4] ∧
    (Spec.glance [0] 1 (Spec.doSteps env Demo.world (l ++ [.tick 1 (Demo.tk 481 70 71)]))).trades.map Trade.result = [116] := by
  constructor <;> decide +kernel

/-- Two strategies of the same reference. -/
def Demo.namesakes : World := { Demo.world with strategies := [Strategy.new "S", Strategy.new "S"] }

/-- Without the hypothesis on references the claim is false: a strategy of the same reference that was registered before keeps the strategy out,
and it never trades. -/
theorem C113_name_false : letI := Arith.exact
    (Spec.look 1 (Spec.doSteps (Spec.ensemble (fun _ => Demo.plan)) Demo.namesakes Demo.steps)).trades = [] ∧
    (Spec.look 1 (Spec.doSteps (Spec.ensemble (fun _ => Demo.plan)) Demo.world Demo.steps)).trades ≠ [] := by
  constructor <;> decide +kernel

end Estrade
