import Verif.Lemmas.Isolation
import Verif.Props.Results
import Verif.Props.Portfolio

/-!
# C70: a strategy is not affected by what other strategies do
-/

set_option linter.style.haveILetI false
set_option linter.unusedSectionVars false
set_option autoImplicit false

namespace Estrade

/-- Spec: what a strategy can do with its own name and its own trades (`n`: position in `self.trades`). -/
inductive Spec.Act
  /-- `self.open_trade(epic, direction=d, quantity=q)` -/
  | open (e : ℕ) (d : Option Dir) (q : ℤ)
  /-- `epic.close_trade(self.trades[n], quantity=q)`; `self.close_trade` (strategy.py:84-96) when `e` is the epic of the trade -/
  | close (e n : ℕ) (q : Option ℤ)
  /-- `self.close_opened_trades(quantity=q)` -/
  | closeAll (q : Option ℤ)
  /-- `self.trades[n].update(v)` -/
  | update (n : ℕ) (v : ℚ)
  /-- `self.trades[n].close(v, dt, q)` -/
  | closeAt (n : ℕ) (v : ℚ) (dt : DT) (q : Option ℤ)
  | pause (dt : Option DT)
  | stop (b : Bool)

/-- Spec: code of a strategy that decides on observations `α` and exceptions. -/
inductive Spec.Code (α : Type)
  | done
  | raise (e : PyErr)
  | act (a : Spec.Act) (k : α → Option PyErr → Spec.Code α)

/-- Spec: code without `raise`. -/
def Spec.Code.Calm {α : Type} : Spec.Code α → Prop
  | .done => True
  | .raise _ => False
  | .act _ k => ∀ x e, (k x e).Calm

/-- Spec: what a strategy sees: the epics with their frames, its own state and its own trades (without the statuses that request
threads assign). -/
structure Spec.View where
  epics : List Epic
  paused : Option DT
  stopped : Bool
  trades : List Trade

section
variable [Arith]

/-- Spec: the n-th trade of strategy `s`. -/
def Spec.nth (s : ℕ) (w : World) (n : ℕ) : Option ℕ := (w.strategies[s]?).bind (fun st => st.trades[n]?)

/-- Spec: the operation of the API; none when `self.trades[n]` raises IndexError. -/
def Spec.op (s : ℕ) (w : World) : Spec.Act → Option Op
  | .open e d q => some (.openTrade e (some s) d q)
  | .close e n q => (Spec.nth s w n).map (fun i => .closeTrade e i q)
  | .closeAll q => some (.closeOpened s q)
  | .update n v => (Spec.nth s w n).map (fun i => .update i v)
  | .closeAt n v dt q => (Spec.nth s w n).map (fun i => .close i v dt q)
  | .pause dt => some (.pause s dt)
  | .stop b => some (.stop s b)

/-- Spec: the program of strategy `s`. -/
def Spec.play {α : Type} (obs : World → α) (s : ℕ) : Spec.Code α → World → Prog
  | .done, _ => .done
  | .raise e, _ => .raise e
  | .act a k, w => match Spec.op s w a with
    | none => Spec.play obs s (k (obs w) (some .index)) w
    | some o => .act o (fun w' e => Spec.play obs s (k (obs w') e) w')

/-- Spec: see `Spec.View`. -/
def Spec.view (s : ℕ) (w : World) : Spec.View := match w.strategies[s]? with
  | none => ⟨w.epics, none, false, []⟩
  | some st => ⟨w.epics, st.pausedUntil, st.stopped, st.trades.filterMap (fun i => (w.trades[i]?).map Trade.blank)⟩

/-- Spec: strategy `s` runs `code` on what it sees, the others run `others` on the whole world, each with its own trades. -/
def Spec.cast (s : ℕ) (code : Cb → ℕ → Spec.View → Spec.Code Spec.View) (others : ℕ → Cb → ℕ → World → Spec.Code World) : Env :=
  fun s' cb e w => if s' = s then Spec.play (Spec.view s) s (code cb e (Spec.view s w)) w
    else Spec.play id s' (others s' cb e w) w

/-! ## Own operations -/

theorem Sim.view {s : ℕ} {w w' : World} (h : Sim s w w') : Spec.view s w = Spec.view s w' := by
  obtain ⟨L, L', hr⟩ := h.rel
  obtain ⟨st, st', h1, h2, h3, h4, h5, h6⟩ := hr.own
  unfold Spec.view
  rw [h1, h2]
  dsimp only
  rw [hr.epics, h5, h6, h3, h4]
  congr 1
  have : ∀ l l' : List ℕ, List.Forall₂ (Pair L L') l l' →
      l.filterMap (fun i => (w.trades[i]?).map Trade.blank) = l'.filterMap (fun i => (w'.trades[i]?).map Trade.blank) := by
    intro l l' hl
    induction hl with
    | nil => rfl
    | cons hp _ ih =>
      obtain ⟨t, t', a, b, c⟩ := hr.twins _ _ hp
      rw [List.filterMap_cons, List.filterMap_cons, a, b, ih]
      simp only [Option.map_some, c]
  exact this _ _ (pairs_self hr.len)

theorem sim_step {s : ℕ} {w w' : World} (h : Sim s w w') {o o' : Op} (hr : ∃ L L', Rel s L L' (w.step o).1 (w'.step o').1) :
    Sim s (w.step o).1 (w'.step o').1 := by
  have h1 := step_steps (V := False) h.ok (o := o) (fun v => v.elim)
  have h2 := step_steps (V := False) h.ok' (o := o') (fun v => v.elim)
  exact ⟨WSteps.inv (fun a b ha hb => hb.regInv ha) h1.lift h.reg, WSteps.inv (fun a b ha hb => hb.regInv ha) h2.lift h.reg',
    h1.epicsOk h.ok, h2.epicsOk h.ok', hr⟩

theorem orKeep_both {s : ℕ} {L L' : List ℕ} {w w' : World} (h : Rel s L L' w w') {r r' : Except PyErr World} (hb : Both s L L' r r') :
    (orKeep w r).2 = (orKeep w' r').2 ∧ Rel s L L' (orKeep w r).1 (orKeep w' r').1 := by
  rcases hb with ⟨e, rfl, rfl⟩ | ⟨u, u', rfl, rfl, hu⟩
  · exact ⟨rfl, h⟩
  · exact ⟨rfl, hu⟩

theorem sim_act {s : ℕ} {w w' : World} (h : Sim s w w') (a : Spec.Act) :
    (Spec.op s w a = none ∧ Spec.op s w' a = none) ∨ ∃ o o', Spec.op s w a = some o ∧ Spec.op s w' a = some o' ∧
      (w.step o).2 = (w'.step o').2 ∧ Sim s (w.step o).1 (w'.step o').1 := by
  obtain ⟨L, L', hr⟩ := h.rel
  obtain ⟨st, st', h1, h2, h3, h4, h5, h6⟩ := hr.own
  have hnth : ∀ n, (Spec.nth s w n = none ∧ Spec.nth s w' n = none) ∨
      ∃ i j, Spec.nth s w n = some i ∧ Spec.nth s w' n = some j ∧ Pair L L' i j := by
    intro n
    unfold Spec.nth
    rw [h1, h2]
    simp only [Option.bind_some]
    rw [h3, h4]
    by_cases hn : n < L.length
    · have hn' : n < L'.length := by rw [← hr.len]; exact hn
      exact .inr ⟨_, _, List.getElem?_eq_getElem hn, List.getElem?_eq_getElem hn', n, List.getElem?_eq_getElem hn, List.getElem?_eq_getElem hn'⟩
    · have hn' : ¬ n < L'.length := by rw [← hr.len]; exact hn
      exact .inl ⟨List.getElem?_eq_none (by omega), List.getElem?_eq_none (by omega)⟩
  cases a with
  | «open» e d q =>
    obtain ⟨a, b⟩ := sim_open h e d q
    exact .inr ⟨_, _, rfl, rfl, a, sim_step h b⟩
  | close e n q =>
    rcases hnth n with ⟨a, b⟩ | ⟨i, j, a, b, c⟩
    · exact .inl ⟨by simp [Spec.op, a], by simp [Spec.op, b]⟩
    · refine .inr ⟨.closeTrade e i q, .closeTrade e j q, by simp [Spec.op, a], by simp [Spec.op, b], ?_⟩
      have : Both s L L' (w.closeTrade e i q) (w'.closeTrade e j q) := by
        unfold World.closeTrade
        rw [hr.epics]
        rcases w'.epics[e]? with _ | ep
        · exact .inl ⟨_, rfl, rfl⟩
        · exact rel_closeOn hr c _ _
      obtain ⟨x, y⟩ := orKeep_both hr this
      exact ⟨x, sim_step h ⟨L, L', y⟩⟩
  | closeAll q =>
    refine .inr ⟨.closeOpened s q, .closeOpened s q, rfl, rfl, ?_⟩
    have hb : Both s L L' (closeOpenedLoop q w st.trades.reverse) (closeOpenedLoop q w' st'.trades.reverse) := by
      rw [h3, h4]
      exact rel_closeOpenedLoop q _ _ (List.rel_reverse (pairs_self hr.len)) w w' hr
    obtain ⟨x, y⟩ := orKeep_both hr hb
    have e1 : w.step (.closeOpened s q) = orKeep w (closeOpenedLoop q w st.trades.reverse) := by simp only [World.step, h1]
    have e2 : w'.step (.closeOpened s q) = orKeep w' (closeOpenedLoop q w' st'.trades.reverse) := by simp only [World.step, h2]
    exact ⟨by rw [e1, e2]; exact x, sim_step h ⟨L, L', by rw [e1, e2]; exact y⟩⟩
  | update n v =>
    rcases hnth n with ⟨a, b⟩ | ⟨i, j, a, b, c⟩
    · exact .inl ⟨by simp [Spec.op, a], by simp [Spec.op, b]⟩
    · exact .inr ⟨.update i v, .update j v, by simp [Spec.op, a], by simp [Spec.op, b], rfl,
        sim_step h ⟨L, L', rel_modTrade hr c _ (fun t => Trade.blank_update t v)⟩⟩
  | closeAt n v dt q =>
    rcases hnth n with ⟨a, b⟩ | ⟨i, j, a, b, c⟩
    · exact .inl ⟨by simp [Spec.op, a], by simp [Spec.op, b]⟩
    · exact .inr ⟨.close i v dt q, .close j v dt q, by simp [Spec.op, a], by simp [Spec.op, b], rfl,
        sim_step h ⟨L, L', rel_modTrade hr c _ (fun t => Trade.blank_close t v dt q)⟩⟩
  | pause dt =>
    exact .inr ⟨_, _, rfl, rfl, rfl, sim_step h ⟨L, L', rel_modStrategy hr _ (fun _ => ⟨rfl, rfl⟩) (fun _ _ _ hb => ⟨rfl, hb⟩)⟩⟩
  | stop b =>
    exact .inr ⟨_, _, rfl, rfl, rfl, sim_step h ⟨L, L', rel_modStrategy hr _ (fun _ => ⟨rfl, rfl⟩) (fun _ _ ha _ => ⟨ha, rfl⟩)⟩⟩

/-- Same exception, worlds that look the same. -/
def SimR (s : ℕ) (r r' : World × Option PyErr) : Prop := r.2 = r'.2 ∧ Sim s r.1 r'.1

theorem sim_play {s : ℕ} (c : Spec.Code Spec.View) : ∀ w w', Sim s w w' →
    SimR s ((Spec.play (Spec.view s) s c w).run w) ((Spec.play (Spec.view s) s c w').run w') := by
  induction c with
  | done => intro w w' h; exact ⟨rfl, h⟩
  | raise e => intro w w' h; exact ⟨rfl, h⟩
  | act a k ih =>
    intro w w' h
    unfold Spec.play
    rcases sim_act h a with ⟨h1, h2⟩ | ⟨o, o', h1, h2, h3, h4⟩
    · rw [h1, h2, h.view]
      exact ih _ _ w w' h
    · rw [h1, h2]
      dsimp only [Prog.run]
      rw [h4.view, h3]
      exact ih _ _ _ _ h4

/-! ## Operations of others -/

/-- Nothing that `Rel` compares changes from `w` to `u`. -/
structure KeepsOwn (s : ℕ) (L : List ℕ) (w u : World) : Prop where
  epics : u.epics = w.epics
  kinds : u.providers.map Provider.kind = w.providers.map Provider.kind
  refs : u.strategies.map Strategy.ref = w.strategies.map Strategy.ref
  own : ∀ st, w.strategies[s]? = some st → ∃ st1, u.strategies[s]? = some st1 ∧ st1.trades = st.trades ∧
    st1.pausedUntil = st.pausedUntil ∧ st1.stopped = st.stopped
  same : ∀ i ∈ L, ∀ t, w.trades[i]? = some t → ∃ t', u.trades[i]? = some t' ∧ t'.blank = t.blank

theorem KeepsOwn.refl (s : ℕ) (L : List ℕ) (w : World) : KeepsOwn s L w w :=
  ⟨rfl, rfl, rfl, fun st h => ⟨st, h, rfl, rfl, rfl⟩, fun _ _ t h => ⟨t, h, rfl⟩⟩

theorem KeepsOwn.trans {s : ℕ} {L : List ℕ} {w u v : World} (h : KeepsOwn s L w u) (k : KeepsOwn s L u v) : KeepsOwn s L w v := by
  refine ⟨k.epics.trans h.epics, k.kinds.trans h.kinds, k.refs.trans h.refs, ?_, ?_⟩
  · intro st hst
    obtain ⟨a, a1, a2, a3, a4⟩ := h.own st hst
    obtain ⟨b, b1, b2, b3, b4⟩ := k.own a a1
    exact ⟨b, b1, b2.trans a2, b3.trans a3, b4.trans a4⟩
  · intro i hi t ht
    obtain ⟨a, a1, a2⟩ := h.same i hi t ht
    obtain ⟨b, b1, b2⟩ := k.same i hi a a1
    exact ⟨b, b1, b2.trans a2⟩

theorem KeepsOwn.rel {s : ℕ} {L L' : List ℕ} {w u w' : World} (h : KeepsOwn s L w u) (hr : Rel s L L' w w') : Rel s L L' u w' := by
  obtain ⟨st, st', h1, h2, h3, h4, h5, h6⟩ := hr.own
  obtain ⟨a, a1, a2, a3, a4⟩ := h.own st h1
  refine ⟨h.epics.trans hr.epics, h.kinds.trans hr.kinds, h.refs.trans hr.refs,
    ⟨a, st', a1, h2, a2.trans h3, h4, a3.trans h5, a4.trans h6⟩, hr.len, hr.nodup, hr.nodup', ?_⟩
  intro i j hp
  obtain ⟨t, t', x, y, z⟩ := hr.twins i j hp
  obtain ⟨n, hn, -⟩ := hp
  obtain ⟨b, b1, b2⟩ := h.same i (List.mem_of_getElem? hn) t x
  exact ⟨b, t', b1, y, b2.trans z⟩

theorem modify_other {α : Type} (l : List α) (f : α → α) {i j : ℕ} (h : i ≠ j) : (l.modify i f)[j]? = l[j]? := by
  rw [List.getElem?_modify]
  simp [h]

theorem keepsOwn_orKeep {s : ℕ} {L : List ℕ} {w : World} {r : Except PyErr World} (h : ∀ u, r = .ok u → KeepsOwn s L w u) :
    KeepsOwn s L w (orKeep w r).1 := by
  cases r with
  | error e => exact KeepsOwn.refl _ _ _
  | ok u => exact h u rfl

theorem keepsOwn_closeOn {s : ℕ} {L : List ℕ} {w u : World} {p i : ℕ} {q : Option ℤ} (h : w.closeOn p i q = .ok u) (hi : i ∉ L) :
    KeepsOwn s L w u := by
  obtain ⟨t, ep, h1, h2, rfl⟩ := closeOn_eq h
  refine ⟨rfl, ?_, rfl, fun st h => ⟨st, h, rfl, rfl, rfl⟩, ?_⟩
  · show (w.providers.modify p _).map Provider.kind = _
    rw [map_modify_eq]
    intro x; rfl
  · intro j hj t' ht'
    refine ⟨t', ?_, rfl⟩
    show (w.trades.set i _)[j]? = _
    have hne : i ≠ j := fun hc => hi (hc ▸ hj)
    rw [List.getElem?_set_ne hne]
    exact ht'

theorem keepsOwn_modTrade {s : ℕ} {L : List ℕ} (w : World) {i : ℕ} (f : Trade → Trade) (hi : i ∉ L) :
    KeepsOwn s L w { w with trades := w.trades.modify i f } := by
  refine ⟨rfl, rfl, rfl, fun st h => ⟨st, h, rfl, rfl, rfl⟩, ?_⟩
  intro j hj t' ht'
  refine ⟨t', ?_, rfl⟩
  show (w.trades.modify i f)[j]? = _
  have hne : i ≠ j := fun hc => hi (hc ▸ hj)
  rw [modify_other _ f hne]
  exact ht'

theorem keepsOwn_modStrategy {s s1 : ℕ} (hne : s1 ≠ s) (L : List ℕ) (w : World) (f : Strategy → Strategy) (hf : ∀ st, (f st).ref = st.ref) :
    KeepsOwn s L w (w.modStrategy s1 f) := by
  refine ⟨rfl, rfl, ?_, ?_, fun _ _ t h => ⟨t, h, rfl⟩⟩
  · show (w.strategies.modify s1 f).map Strategy.ref = _
    exact map_modify_eq Strategy.ref _ _ f hf
  · intro st hst
    refine ⟨st, ?_, rfl, rfl, rfl⟩
    show (w.strategies.modify s1 f)[s]? = _
    rw [modify_other _ f hne]
    exact hst

theorem keepsOwn_closeOpenedLoop {s : ℕ} {L : List ℕ} (q : Option ℤ) (l : List ℕ) (hl : ∀ i ∈ l, i ∉ L) : ∀ (w u : World),
    closeOpenedLoop q w l = .ok u → KeepsOwn s L w u := by
  induction l with
  | nil => intro w u h; injection h with h; subst h; exact KeepsOwn.refl _ _ _
  | cons i rest ih =>
    intro w u h
    have ih' := ih (fun j hj => hl j (List.mem_cons_of_mem _ hj))
    unfold closeOpenedLoop at h
    split at h
    · cases h
    · rename_i t ht
      split_ifs at h
      · exact ih' w u h
      · rcases hc : w.closeTrade t.epic i q with e | v
        · rw [hc] at h; cases h
        · rw [hc] at h
          have hc' := hc
          unfold World.closeTrade at hc'
          split at hc'
          · cases hc'
          · exact (keepsOwn_closeOn hc' (hl i List.mem_cons_self)).trans (ih' v u h)

theorem netLoop_shape {p : ℕ} (l : List ℕ) : ∀ (w u : World) (new n : Trade), netLoop p w new l = .ok (u, n) →
    u.epics = w.epics ∧ u.strategies = w.strategies ∧ u.providers.map Provider.kind = w.providers.map Provider.kind := by
  induction l with
  | nil => intro w u new n h; injection h with h; injection h with h1 h2; subst h1; exact ⟨rfl, rfl, rfl⟩
  | cons i rest ih =>
    intro w u new n h
    unfold netLoop at h
    split at h
    · cases h
    · split_ifs at h
      · exact ih w u new n h
      · simp only [bind, Except.bind] at h
        split at h
        · cases h
        · rename_i v hv
          obtain ⟨a, b, c⟩ := ih _ _ _ _ h
          obtain ⟨t, ep, h1, h2, rfl⟩ := closeOn_eq hv
          refine ⟨a, b, c.trans ?_⟩
          show (w.providers.modify p _).map Provider.kind = _
          rw [map_modify_eq]
          intro x; rfl
      · exact ih w u new n h

theorem keepsOwn_register {s : ℕ} {L : List ℕ} (w : World) (p i : ℕ) (s1 : Option ℕ) (hne : s1 ≠ some s) :
    KeepsOwn s L w (w.register p i s1) := by
  obtain ⟨a1, a2, a3, a4, -⟩ := register_eq w p i s1
  refine ⟨a2, ?_, ?_, ?_, fun j _ t h => ⟨t, by rw [a1]; exact h, rfl⟩⟩
  · rw [a3, map_modify_eq]
    intro x; rfl
  · rw [a4]
    cases s1 with
    | none => rfl
    | some k =>
      dsimp only
      rw [map_modify_eq]
      intro x; rfl
  · intro st hst
    refine ⟨st, ?_, rfl, rfl, rfl⟩
    rw [a4]
    cases s1 with
    | none => exact hst
    | some k =>
      dsimp only
      have hks : k ≠ s := fun hc => hne (by rw [hc])
      rw [modify_other _ _ hks]
      exact hst

theorem keepsOwn_open {s : ℕ} {w : World} {st : Strategy} (hi : RegInv w) (hs : w.strategies[s]? = some st) (e : ℕ) (s1 : Option ℕ)
    (hne : s1 ≠ some s) (d : Option Dir) (q : ℤ) : KeepsOwn s st.trades w (w.step (.openTrade e s1 d q)).1 := by
  have hsame : ∀ i ∈ st.trades, ∀ t, w.trades[i]? = some t → t.strategy ≠ s1 := by
    intro i him t ht
    have := ((hi.stratOf i t s st ht hs).mp him).1
    rw [this]
    exact fun hc => hne hc.symm
  simp only [World.step]
  rcases w.epics[e]? with _ | ep
  · exact KeepsOwn.refl _ _ _
  · dsimp only
    split_ifs
    · refine keepsOwn_orKeep (fun u hr => ?_)
      cases d with
      | none => simp [Trade.openFromTick, bind, Except.bind] at hr
      | some d =>
        rcases ho : Trade.openFromTick ep.lastTick e (some d) q s1 with err | new
        · rw [ho] at hr; cases hr
        · rw [ho] at hr
          simp only [bind, Except.bind] at hr
          have hns : new.strategy = s1 := by
            cases d <;> (injection ho with ho; rw [← ho]; rfl)
          unfold World.providerOpen at hr
          split at hr
          · cases hr
          · rename_i pr hpr
            split at hr
            · injection hr with hr
              subst hr
              refine KeepsOwn.trans (u := { w with trades := w.trades ++ [new] }) ?_ (keepsOwn_register _ _ _ _ (by rw [hns]; exact hne))
              refine ⟨rfl, rfl, rfl, fun st h => ⟨st, h, rfl, rfl, rfl⟩, ?_⟩
              intro i him t ht
              exact ⟨t, by rw [List.getElem?_append_left (List.getElem?_eq_some_iff.mp ht).1]; exact ht, rfl⟩
            · rcases hn : netLoop ep.provider w new (w.openedTrades pr) with err | ⟨v, n⟩
              · rw [hn] at hr; cases hr
              · rw [hn] at hr
                simp only [bind, Except.bind] at hr
                obtain ⟨a, b, c⟩ := netLoop_shape _ _ _ _ _ hn
                obtain ⟨hl, -, ho⟩ := netLoop_others _ _ _ _ _ hn
                have hk : KeepsOwn s st.trades w { v with trades := v.trades ++ [n] } := by
                  refine ⟨a, c, by rw [← b], ?_, ?_⟩
                  · intro st0 h0
                    exact ⟨st0, by show v.strategies[s]? = _; rw [b]; exact h0, rfl, rfl, rfl⟩
                  · intro i him t ht
                    have := ho i t ht (.inr (by rw [hns]; exact hsame i him t ht))
                    exact ⟨t, by rw [List.getElem?_append_left (List.getElem?_eq_some_iff.mp this).1]; exact this, rfl⟩
                split_ifs at hr
                · injection hr with hr; subst hr; exact hk
                · injection hr with hr; subst hr
                  exact hk.trans (keepsOwn_register _ _ _ _ (by rw [hns]; exact hne))
    · exact KeepsOwn.refl _ _ _

theorem keepsOwn_act {s s1 : ℕ} (hne : s1 ≠ s) {w : World} {st : Strategy} (hi : RegInv w) (hs : w.strategies[s]? = some st)
    (a : Spec.Act) {o : Op} (ho : Spec.op s1 w a = some o) : KeepsOwn s st.trades w (w.step o).1 := by
  have hnot : ∀ st1, w.strategies[s1]? = some st1 → ∀ i ∈ st1.trades, i ∉ st.trades := by
    intro st1 h1 i h2 h3
    have hlt := hi.stratLt s st hs i h3
    have ht := List.getElem?_eq_getElem hlt
    have e1 := ((hi.stratOf i _ s1 st1 ht h1).mp h2).1
    have e2 := ((hi.stratOf i _ s st ht hs).mp h3).1
    rw [e1] at e2
    injection e2 with e2
    exact hne e2
  have hnth : ∀ n i, Spec.nth s1 w n = some i → i ∉ st.trades := by
    intro n i hn
    unfold Spec.nth at hn
    rcases h1 : w.strategies[s1]? with _ | st1
    · rw [h1] at hn; cases hn
    · rw [h1] at hn
      exact hnot st1 h1 i (List.mem_of_getElem? hn)
  cases a with
  | «open» e d q =>
    injection ho with ho; subst ho
    exact keepsOwn_open hi hs e (some s1) (fun hc => hne (by injection hc)) d q
  | close e n q =>
    simp only [Spec.op, Option.map_eq_some_iff] at ho
    obtain ⟨i, hn, rfl⟩ := ho
    refine keepsOwn_orKeep (fun u hu => ?_)
    unfold World.closeTrade at hu
    split at hu
    · cases hu
    · exact keepsOwn_closeOn hu (hnth n i hn)
  | closeAll q =>
    injection ho with ho; subst ho
    simp only [World.step]
    rcases h1 : w.strategies[s1]? with _ | st1
    · exact KeepsOwn.refl _ _ _
    · exact keepsOwn_orKeep (fun u hu => keepsOwn_closeOpenedLoop q _ (fun i him => hnot st1 h1 i (List.mem_reverse.mp him)) _ _ hu)
  | update n v =>
    simp only [Spec.op, Option.map_eq_some_iff] at ho
    obtain ⟨i, hn, rfl⟩ := ho
    exact keepsOwn_modTrade w _ (hnth n i hn)
  | closeAt n v dt q =>
    simp only [Spec.op, Option.map_eq_some_iff] at ho
    obtain ⟨i, hn, rfl⟩ := ho
    exact keepsOwn_modTrade w _ (hnth n i hn)
  | pause dt => injection ho with ho; subst ho; exact keepsOwn_modStrategy hne _ _ _ (fun _ => rfl)
  | stop b => injection ho with ho; subst ho; exact keepsOwn_modStrategy hne _ _ _ (fun _ => rfl)

theorem Sim.left {s : ℕ} {w w' u : World} (h : Sim s w w') (hs : WSteps False w u)
    (hk : ∀ st, w.strategies[s]? = some st → KeepsOwn s st.trades w u) : Sim s u w' := by
  obtain ⟨L, L', hr⟩ := h.rel
  obtain ⟨st, st', h1, h2, h3, h4, h5, h6⟩ := hr.own
  have := hk st h1
  rw [h3] at this
  exact ⟨WSteps.inv (fun a b ha hb => hb.regInv ha) hs h.reg, h.reg', hs.epicsOk h.ok, h.ok', L, L', this.rel hr⟩

theorem sim_foreign {s s1 : ℕ} (hne : s1 ≠ s) (c : Spec.Code World) : c.Calm → ∀ w w', Sim s w w' →
    ((Spec.play id s1 c w).run w).2 = none ∧ Sim s ((Spec.play id s1 c w).run w).1 w' := by
  induction c with
  | done => intro _ w w' h; exact ⟨rfl, h⟩
  | raise e => intro hc; exact hc.elim
  | act a k ih =>
    intro hc w w' h
    unfold Spec.play
    rcases ho : Spec.op s1 w a with _ | o
    · exact ih _ _ (hc _ _) w w' h
    · dsimp only [Prog.run]
      exact ih _ _ (hc _ _) _ _ (h.left (step_steps h.ok (fun v => v.elim)).lift (fun st hst => keepsOwn_act hne h.reg hst a ho))

/-! ## Ticks -/

theorem SimR.andThen {s : ℕ} {r r' : World × Option PyErr} {f f' : World → World × Option PyErr} (h : SimR s r r')
    (hf : ∀ u u', Sim s u u' → SimR s (f u) (f' u')) : SimR s (andThen r f) (andThen r' f') := by
  obtain ⟨u, e⟩ := r
  obtain ⟨u', e'⟩ := r'
  obtain ⟨h1, h2⟩ := h
  dsimp only at h1 h2
  subst h1
  cases e with
  | none => exact hf u u' h2
  | some x => exact ⟨rfl, h2⟩

theorem Sim.log {s : ℕ} {w w' : World} (h : Sim s w w') (l l' : List Event) : Sim s { w with log := l } { w' with log := l' } := by
  obtain ⟨L, L', hr⟩ := h.rel
  exact ⟨h.reg.quiet ⟨rfl, rfl, rfl, KeptAll.refl _⟩ rfl, h.reg'.quiet ⟨rfl, rfl, rfl, KeptAll.refl _⟩ rfl, h.ok, h.ok',
    L, L', hr.epics, hr.kinds, hr.refs, hr.own, hr.len, hr.nodup, hr.nodup', hr.twins⟩

section
variable {s : ℕ} {code : Cb → ℕ → Spec.View → Spec.Code Spec.View} {others others' : ℕ → Cb → ℕ → World → Spec.Code World}

theorem sim_call {w w' : World} (h : Sim s w w') (cb : Cb) (e : ℕ) :
    SimR s (w.call (Spec.cast s code others) s cb e) (w'.call (Spec.cast s code others') s cb e) := by
  have h' := h.log (w.log ++ [.notify s e cb]) (w'.log ++ [.notify s e cb])
  unfold World.call Spec.cast
  simp only [if_true]
  rw [h'.view]
  exact sim_play _ _ _ h'

theorem sim_callIf {w w' : World} (h : Sim s w w') (c : Bool) (cb : Cb) (e : ℕ) :
    SimR s (w.callIf (Spec.cast s code others) c s cb e) (w'.callIf (Spec.cast s code others') c s cb e) := by
  unfold World.callIf
  split_ifs
  · exact sim_call h cb e
  · exact ⟨rfl, h⟩

theorem Sim.marketOpen {w w' : World} (h : Sim s w w') (e : ℕ) : w.marketOpen e = w'.marketOpen e := by
  obtain ⟨L, L', hr⟩ := h.rel
  unfold World.marketOpen
  rw [hr.epics]

theorem sim_notifyAll {w w' : World} (h : Sim s w w') (e : ℕ) (b : Bool) :
    SimR s (w.notifyAll (Spec.cast s code others) e s b) (w'.notifyAll (Spec.cast s code others') e s b) := by
  unfold World.notifyAll
  rw [h.marketOpen]
  refine SimR.andThen (sim_callIf h _ _ _) fun u u' hu => ?_
  rw [hu.marketOpen]
  refine SimR.andThen (sim_callIf hu _ _ _) fun v v' hv => ?_
  rw [hv.marketOpen]
  exact SimR.andThen (sim_callIf hv _ _ _) fun x x' hx => sim_call hx _ _

theorem foreign_call {s1 : ℕ} (hne : s1 ≠ s) (hc : ∀ s1 cb e w, (others s1 cb e w).Calm) {w w' : World} (h : Sim s w w') (cb : Cb) (e : ℕ) :
    (w.call (Spec.cast s code others) s1 cb e).2 = none ∧ Sim s (w.call (Spec.cast s code others) s1 cb e).1 w' := by
  have h' := h.log (w.log ++ [.notify s1 e cb]) w'.log
  unfold World.call Spec.cast
  simp only [if_neg hne]
  exact sim_foreign hne _ (hc _ _ _ _) _ _ h'

theorem foreign_callIf {s1 : ℕ} (hne : s1 ≠ s) (hc : ∀ s1 cb e w, (others s1 cb e w).Calm) {w w' : World} (h : Sim s w w') (c : Bool)
    (cb : Cb) (e : ℕ) : (w.callIf (Spec.cast s code others) c s1 cb e).2 = none ∧
      Sim s (w.callIf (Spec.cast s code others) c s1 cb e).1 w' := by
  unfold World.callIf
  split_ifs
  · exact foreign_call hne hc h cb e
  · exact ⟨rfl, h⟩

theorem foreign_andThen {r : World × Option PyErr} {w' : World} {f : World → World × Option PyErr} (h : r.2 = none ∧ Sim s r.1 w')
    (hf : ∀ u, Sim s u w' → (f u).2 = none ∧ Sim s (f u).1 w') : (andThen r f).2 = none ∧ Sim s (andThen r f).1 w' := by
  obtain ⟨u, e⟩ := r
  obtain ⟨h1, h2⟩ := h
  dsimp only at h1 h2
  subst h1
  exact hf u h2

theorem foreign_notifyAll {s1 : ℕ} (hne : s1 ≠ s) (hc : ∀ s1 cb e w, (others s1 cb e w).Calm) {w w' : World} (h : Sim s w w') (e : ℕ)
    (b : Bool) : (w.notifyAll (Spec.cast s code others) e s1 b).2 = none ∧
      Sim s (w.notifyAll (Spec.cast s code others) e s1 b).1 w' := by
  unfold World.notifyAll
  refine foreign_andThen (foreign_callIf hne hc h _ _ _) fun u hu => ?_
  refine foreign_andThen (foreign_callIf hne hc hu _ _ _) fun v hv => ?_
  exact foreign_andThen (foreign_callIf hne hc hv _ _ _) fun x hx => foreign_call hne hc hx _ _

theorem setActive_eq (w : World) {s1 : ℕ} {st : Strategy} (hs : w.strategies[s1]? = some st) (dt : DT) :
    ({ w with strategies := w.strategies.set s1 (st.isActive dt).2 } : World) = w.modStrategy s1 (fun st => (st.isActive dt).2) := by
  unfold World.modStrategy
  rw [set_eq_modify _ _ _ (fun st => (st.isActive dt).2) hs]

theorem setActive_steps (w : World) (s1 : ℕ) (dt : DT) : WSteps False w (w.modStrategy s1 (fun st => (st.isActive dt).2)) :=
  .single (.prim (.strat s1 _ (fun st => ⟨(isActive_keeps st dt).1, (isActive_keeps st dt).2.1⟩)))

theorem foreign_exec {s1 : ℕ} (hne : s1 ≠ s) (hc : ∀ s1 cb e w, (others s1 cb e w).Calm) {w w' : World} (h : Sim s w w') (e : ℕ)
    (b : Bool) (dt : DT) (hlt : s1 < w.strategies.length) : (w.execStrategy (Spec.cast s code others) e s1 b dt).2 = none ∧
      Sim s (w.execStrategy (Spec.cast s code others) e s1 b dt).1 w' := by
  unfold World.execStrategy
  rcases hs : w.strategies[s1]? with _ | st
  · rw [List.getElem?_eq_none_iff] at hs; omega
  · dsimp only
    rw [setActive_eq w hs]
    have h' : Sim s (w.modStrategy s1 (fun st => (st.isActive dt).2)) w' :=
      h.left (setActive_steps w s1 dt) (fun st _ => keepsOwn_modStrategy hne _ _ _ (fun st => (isActive_keeps st dt).2.1))
    split_ifs
    · exact foreign_notifyAll hne hc h' _ _
    · exact ⟨rfl, h'⟩

theorem isActive_same {st st' : Strategy} (h1 : st.pausedUntil = st'.pausedUntil) (h2 : st.stopped = st'.stopped) (dt : DT) :
    (st.isActive dt).1 = (st'.isActive dt).1 ∧ (st.isActive dt).2.pausedUntil = (st'.isActive dt).2.pausedUntil ∧
    (st.isActive dt).2.stopped = (st'.isActive dt).2.stopped := by
  unfold Strategy.isActive
  rw [h1, h2]
  split_ifs
  · exact ⟨rfl, h1, h2⟩
  · rcases hp : st'.pausedUntil with _ | p
    · exact ⟨rfl, by rw [h1, hp], h2⟩
    · dsimp only
      split_ifs
      · exact ⟨rfl, by rw [h1, hp], h2⟩
      · exact ⟨rfl, rfl, rfl⟩

theorem Rel.strategies_len {L L' : List ℕ} {w w' : World} (h : Rel s L L' w w') : w.strategies.length = w'.strategies.length := by
  have := congrArg List.length h.refs
  simpa using this

theorem sim_exec (hc : ∀ s1 cb e w, (others s1 cb e w).Calm) (hc' : ∀ s1 cb e w, (others' s1 cb e w).Calm) {w w' : World}
    (h : Sim s w w') (e s1 : ℕ) (b : Bool) (dt : DT) :
    SimR s (w.execStrategy (Spec.cast s code others) e s1 b dt) (w'.execStrategy (Spec.cast s code others') e s1 b dt) := by
  have hlen : w.strategies.length = w'.strategies.length := by
    obtain ⟨L, L', hr⟩ := h.rel
    exact hr.strategies_len
  by_cases hlt : s1 < w.strategies.length
  · by_cases hne : s1 = s
    · subst hne
      obtain ⟨L, L', hr⟩ := h.rel
      obtain ⟨st, st', h1, h2, h3, h4, h5, h6⟩ := hr.own
      unfold World.execStrategy
      rw [h1, h2]
      dsimp only
      rw [setActive_eq w h1, setActive_eq w' h2, (isActive_same h5 h6 dt).1]
      have hr' : Rel s1 L L' (w.modStrategy s1 (fun st => (st.isActive dt).2)) (w'.modStrategy s1 (fun st => (st.isActive dt).2)) :=
        rel_modStrategy hr _ (fun st => ⟨(isActive_keeps st dt).1, (isActive_keeps st dt).2.1⟩)
          (fun a b ha hb => (isActive_same ha hb dt).2)
      have h' : Sim s1 (w.modStrategy s1 (fun st => (st.isActive dt).2)) (w'.modStrategy s1 (fun st => (st.isActive dt).2)) :=
        ⟨WSteps.inv (fun a b ha hb => hb.regInv ha) (setActive_steps w s1 dt) h.reg,
          WSteps.inv (fun a b ha hb => hb.regInv ha) (setActive_steps w' s1 dt) h.reg',
          (setActive_steps w s1 dt).epicsOk h.ok, (setActive_steps w' s1 dt).epicsOk h.ok', L, L', hr'⟩
      split_ifs
      · exact sim_notifyAll h' _ _
      · exact ⟨rfl, h'⟩
    · obtain ⟨a, x⟩ := foreign_exec (code := code) hne hc h e b dt hlt
      obtain ⟨c, y⟩ := foreign_exec (code := code) hne hc' x.symm e b dt (by rw [← hlen]; exact hlt)
      exact ⟨by rw [a, c], y.symm⟩
  · unfold World.execStrategy
    rw [List.getElem?_eq_none (by omega), List.getElem?_eq_none (by omega)]
    exact ⟨rfl, h⟩

theorem sim_execAll (hc : ∀ s1 cb e w, (others s1 cb e w).Calm) (hc' : ∀ s1 cb e w, (others' s1 cb e w).Calm) (e : ℕ) (b : Bool)
    (dt : DT) (l : List ℕ) : ∀ w w', Sim s w w' →
    SimR s (execStrategies (Spec.cast s code others) e b dt w l) (execStrategies (Spec.cast s code others') e b dt w' l) := by
  induction l with
  | nil => intro w w' h; exact ⟨rfl, h⟩
  | cons s1 rest ih =>
    intro w w' h
    unfold execStrategies
    exact SimR.andThen (sim_exec hc hc' h e s1 b dt) ih

/-- An own trade is updated by a tick of provider `p` if that is its provider and it is open. -/
theorem updateOpenTrades_own {w : World} (hi : RegInv w) {st : Strategy} (hs : w.strategies[s]? = some st) (p : ℕ) (k : Tick) {i : ℕ}
    (him : i ∈ st.trades) {t : Trade} (ht : w.trades[i]? = some t) :
    (w.updateOpenTrades p k).trades[i]? =
      some (if w.providerOf t = some p ∧ t.openedQty ≠ 0 then t.updateFromTick k else t) := by
  obtain ⟨-, p1, pr1, hp1, hin⟩ := (hi.stratOf i t s st ht hs).mp him
  have hof := hi.provOf i t p1 pr1 ht hp1 hin
  rcases hp : w.providers[p]? with _ | pr
  · have : w.updateOpenTrades p k = w := by unfold World.updateOpenTrades; rw [hp]
    rw [this, ht]
    have hne : w.providerOf t ≠ some p := by
      rw [hof]
      intro hc
      injection hc with hc
      subst hc
      rw [hp] at hp1; cases hp1
    rw [if_neg (fun hc => hne hc.1)]
  · rw [updateOpenTrades_get hi hp k i, ht]
    simp only [Option.map_some]
    have : i ∈ pr.trades ↔ w.providerOf t = some p := by
      constructor
      · exact hi.provOf i t p pr ht hp
      · intro hc
        rw [hof] at hc
        injection hc with hc
        subst hc
        rw [hp1] at hp; injection hp with hp; subst hp
        exact hin
    simp only [this]

theorem sim_update {w w' : World} (h : Sim s w w') (p : ℕ) (k : Tick) : Sim s (w.updateOpenTrades p k) (w'.updateOpenTrades p k) := by
  obtain ⟨L, L', hr⟩ := h.rel
  obtain ⟨st, st', h1, h2, h3, h4, h5, h6⟩ := hr.own
  have s1 := updateOpenTrades_steps (V := False) w p k
  have s2 := updateOpenTrades_steps (V := False) w' p k
  obtain ⟨a1, a2, a3, -⟩ := updateOpenTrades_rest w p k
  obtain ⟨b1, b2, b3, -⟩ := updateOpenTrades_rest w' p k
  refine ⟨WSteps.inv (fun a b ha hb => hb.regInv ha) s1.lift h.reg, WSteps.inv (fun a b ha hb => hb.regInv ha) s2.lift h.reg',
    s1.epicsOk h.ok, s2.epicsOk h.ok', L, L', by rw [a1, b1]; exact hr.epics, by rw [a2, b2]; exact hr.kinds,
    by rw [a3, b3]; exact hr.refs, ⟨st, st', by rw [a3]; exact h1, by rw [b3]; exact h2, h3, h4, h5, h6⟩, hr.len, hr.nodup, hr.nodup', ?_⟩
  intro i j hp
  obtain ⟨t, t', x, y, z⟩ := hr.twins i j hp
  have hp0 := hp
  obtain ⟨n, hn, hn'⟩ := hp
  have e1 := updateOpenTrades_own h.reg h1 p k (h3 ▸ List.mem_of_getElem? hn) x
  have e2 := updateOpenTrades_own h.reg' h2 p k (h4 ▸ List.mem_of_getElem? hn') y
  refine ⟨_, _, e1, e2, ?_⟩
  rw [hr.providerOf z, (blank_same z).2.2.2.2]
  split_ifs
  · rw [← Trade.blank_updateFromTick, ← Trade.blank_updateFromTick, z]
  · exact z

theorem sim_epics {w w' : World} (h : Sim s w w') (l : List Epic) (hl : l.map Epic.provider = w.epics.map Epic.provider)
    (g g' : List Event) : Sim s { w with epics := l, log := g } { w' with epics := l, log := g' } := by
  obtain ⟨L, L', hr⟩ := h.rel
  have s1 : WSteps False w { w with epics := l } := .single (.epics _ hl)
  have s2 : WSteps False w' { w' with epics := l } := .single (.epics _ (by rw [← hr.epics]; exact hl))
  have h1 : Sim s { w with epics := l } { w' with epics := l } :=
    ⟨WSteps.inv (fun a b ha hb => hb.regInv ha) s1 h.reg, WSteps.inv (fun a b ha hb => hb.regInv ha) s2 h.reg',
      s1.epicsOk h.ok, s2.epicsOk h.ok', L, L', rfl, hr.kinds, hr.refs, hr.own, hr.len, hr.nodup, hr.nodup', hr.twins⟩
  exact h1.log g g'

theorem sim_tick (hc : ∀ s1 cb e w, (others s1 cb e w).Calm) (hc' : ∀ s1 cb e w, (others' s1 cb e w).Calm) {w w' : World}
    (h : Sim s w w') (e : ℕ) (k : Tick) :
    SimR s (w.onNewTick (Spec.cast s code others) e k) (w'.onNewTick (Spec.cast s code others') e k) := by
  obtain ⟨L, L', hr⟩ := h.rel
  unfold World.onNewTick
  rcases hep : w.epics[e]? with _ | ep
  · rw [← hr.epics, hep]; exact ⟨rfl, h⟩
  · rw [← hr.epics, hep]
    dsimp only
    split_ifs
    · exact ⟨rfl, h⟩
    · have h1 := sim_epics h (w.epics.set e (ep.accept { k with dt := k.dt.to ep.zone }).1) (map_provider_set _ _ _ _ hep rfl)
        (w.log ++ [.accepted e { k with dt := k.dt.to ep.zone }]) (w'.log ++ [.accepted e { k with dt := k.dt.to ep.zone }])
      split
      · exact ⟨rfl, h1⟩
      · exact sim_execAll hc hc' _ _ _ _ _ _ (sim_update h1 _ _)

end

/-! ## Runs -/

/-- Spec: what the main program does: ticks and registrations, acts on behalf of a strategy, trades without a strategy, request
threads that run. -/
inductive Spec.Step
  | tick (e : ℕ) (k : Tick)
  | addFrameSet (e : ℕ) (ref : String) (fs : FrameSet)
  | addStrategy (e s : ℕ)
  | addIndicator (e : ℕ) (ref : String) (ind : Indicator)
  | act (s : ℕ) (a : Spec.Act)
  | nobody (e : ℕ) (d : Option Dir) (q : ℤ)
  | thread (p i : ℕ) (st : Option Status)

/-- Spec: steps that concern strategy `s`; the others are acts of other strategies and of nobody, and request threads. -/
def Spec.Step.concerns (s : ℕ) : Spec.Step → Bool
  | .act s1 _ => decide (s1 = s)
  | .nobody .. => false
  | .thread .. => false
  | _ => true

/-- Spec: the main program goes on after exceptions. -/
def Spec.doStep (env : Env) (w : World) : Spec.Step → World
  | .tick e k => (w.exec env (.tick e k)).1
  | .addFrameSet e ref fs => (w.exec env (.addFrameSet e ref fs)).1
  | .addStrategy e s => (w.exec env (.addStrategy e s)).1
  | .addIndicator e ref ind => (w.exec env (.addIndicator e ref ind)).1
  | .act s a => match Spec.op s w a with
    | none => w
    | some o => (w.exec env (.op o)).1
  | .nobody e d q => (w.exec env (.op (.openTrade e none d q))).1
  | .thread p i st => (w.exec env (.op (.thread p i st))).1

def Spec.doSteps (env : Env) (w : World) (l : List Spec.Step) : World := l.foldl (Spec.doStep env) w

theorem keepsOwn_thread (s : ℕ) (L : List ℕ) (w : World) (p i : ℕ) (st : Option Status) : KeepsOwn s L w (w.runThread p i st).1 := by
  have hb := thread_blank w p i st
  have h1 : (w.runThread p i st).1.epics = w.epics := show (w.runThread p i st).1.blank.epics = w.blank.epics by rw [hb]
  have h2 : (w.runThread p i st).1.strategies = w.strategies := show (w.runThread p i st).1.blank.strategies = w.blank.strategies by rw [hb]
  have h3 : (w.runThread p i st).1.blank.providers.map Provider.kind = w.blank.providers.map Provider.kind := by rw [hb]
  have h4 : (w.runThread p i st).1.trades.map Trade.blank = w.trades.map Trade.blank := show (w.runThread p i st).1.blank.trades = w.blank.trades by rw [hb]
  refine ⟨h1, ?_, by rw [h2], fun st h => ⟨st, by rw [h2]; exact h, rfl, rfl, rfl⟩, ?_⟩
  · rw [show (w.runThread p i st).1.blank.providers = (w.runThread p i st).1.providers.map Provider.blank from rfl,
      show w.blank.providers = w.providers.map Provider.blank from rfl, List.map_map, List.map_map] at h3
    exact h3
  · intro j _ t ht
    obtain ⟨y, hy, hy'⟩ := map_getElem?_eq h4.symm ht
    exact ⟨y, hy, hy'⟩

theorem sim_shared {s : ℕ} {code : Cb → ℕ → Spec.View → Spec.Code Spec.View} {others others' : ℕ → Cb → ℕ → World → Spec.Code World}
    (hc : ∀ s1 cb e w, (others s1 cb e w).Calm) (hc' : ∀ s1 cb e w, (others' s1 cb e w).Calm) {w w' : World}
    (h : Sim s w w') (x : Spec.Step) (hx : x.concerns s = true) :
    Sim s (Spec.doStep (Spec.cast s code others) w x) (Spec.doStep (Spec.cast s code others') w' x) := by
  obtain ⟨L, L', hr⟩ := h.rel
  have hset : ∀ (e : ℕ) (ep x : Epic), w.epics[e]? = some ep → x.provider = ep.provider →
      Sim s { w with epics := w.epics.set e x } { w' with epics := w.epics.set e x } := fun e ep x h1 h2 =>
    sim_epics h _ (map_provider_set _ _ _ _ h1 h2) w.log w'.log
  cases x with
  | tick e k => exact (sim_tick hc hc' h e k).2
  | addFrameSet e ref fs =>
    simp only [Spec.doStep, World.exec, World.addFrameSet]
    rcases hep : w.epics[e]? with _ | ep
    · rw [← hr.epics, hep]; exact h
    · rw [← hr.epics, hep]
      dsimp only
      rcases ha : ep.addFrameSet ref fs with err | ep'
      · exact h
      · refine hset e ep ep' hep ?_
        unfold Epic.addFrameSet at ha
        split at ha
        · cases ha
        · injection ha with ha; rw [← ha]
  | addIndicator e ref ind =>
    simp only [Spec.doStep, World.exec, World.addIndicator]
    rcases hep : w.epics[e]? with _ | ep
    · rw [← hr.epics, hep]; exact h
    · rw [← hr.epics, hep]
      dsimp only
      split
      · exact h
      · exact hset e ep _ hep rfl
  | addStrategy e s1 =>
    simp only [Spec.doStep, World.exec, World.addStrategy]
    rcases hep : w.epics[e]? with _ | ep
    · rw [← hr.epics, hep]; exact h
    · rw [← hr.epics, hep]
      have hst : (w.strategies[s1]?).map Strategy.ref = (w'.strategies[s1]?).map Strategy.ref := by
        have := congrArg (fun l : List String => l[s1]?) hr.refs
        simpa using this
      rcases h1 : w.strategies[s1]? with _ | st
      · rw [h1] at hst
        rcases h2 : w'.strategies[s1]? with _ | st'
        · exact h
        · rw [h2] at hst; cases hst
      · rw [h1] at hst
        rcases h2 : w'.strategies[s1]? with _ | st'
        · rw [h2] at hst; cases hst
        · rw [h2] at hst
          simp only [Option.map_some] at hst
          injection hst with hst
          dsimp only
          rw [hst]
          split
          · exact h
          · have hm : w.epics.modify e (fun ep => { ep with strategies := ep.strategies.set st'.ref s1 }) =
                w.epics.set e { ep with strategies := ep.strategies.set st'.ref s1 } := (set_eq_modify _ _ _ _ hep).symm
            have h3 := hset e ep { ep with strategies := ep.strategies.set st'.ref s1 } hep rfl
            rw [← hm] at h3
            have key : ∀ u u', Sim s u u' → Sim s (u.modStrategy s1 (fun st => { st with epics := st.epics.set ep.ref e }))
                (u'.modStrategy s1 (fun st => { st with epics := st.epics.set ep.ref e })) := by
              intro u u' hu
              have t1 : WSteps False u (u.modStrategy s1 (fun st => { st with epics := st.epics.set ep.ref e })) :=
                .single (.prim (.strat s1 _ (fun _ => ⟨rfl, rfl⟩)))
              have t2 : WSteps False u' (u'.modStrategy s1 (fun st => { st with epics := st.epics.set ep.ref e })) :=
                .single (.prim (.strat s1 _ (fun _ => ⟨rfl, rfl⟩)))
              by_cases hne : s1 = s
              · subst hne
                obtain ⟨M, M', hm⟩ := hu.rel
                exact ⟨WSteps.inv (fun a b ha hb => hb.regInv ha) t1 hu.reg, WSteps.inv (fun a b ha hb => hb.regInv ha) t2 hu.reg',
                  t1.epicsOk hu.ok, t2.epicsOk hu.ok', M, M', rel_modStrategy hm _ (fun _ => ⟨rfl, rfl⟩) (fun _ _ ha hb => ⟨ha, hb⟩)⟩
              · have l1 := hu.left t1 (fun st _ => keepsOwn_modStrategy hne _ _ _ (fun _ => rfl))
                exact (l1.symm.left t2 (fun st _ => keepsOwn_modStrategy hne _ _ _ (fun _ => rfl))).symm
            have h4 := key _ _ h3
            unfold World.modEpic
            rw [← hr.epics]
            exact h4
  | act s1 a =>
    simp only [Spec.Step.concerns, decide_eq_true_eq] at hx
    subst hx
    simp only [Spec.doStep]
    rcases sim_act h a with ⟨a1, a2⟩ | ⟨o, o', a1, a2, -, a4⟩
    · rw [a1, a2]; exact h
    · rw [a1, a2]; exact a4
  | nobody e d q => cases hx
  | thread p i st => cases hx

theorem sim_apart {s : ℕ} (env : Env) {w w' : World} (h : Sim s w w') (x : Spec.Step) (hx : x.concerns s = false) :
    Sim s (Spec.doStep env w x) w' := by
  cases x with
  | tick e k => cases hx
  | addFrameSet e ref fs => cases hx
  | addIndicator e ref ind => cases hx
  | addStrategy e s1 => cases hx
  | act s1 a =>
    simp only [Spec.Step.concerns, decide_eq_false_iff_not] at hx
    simp only [Spec.doStep]
    rcases ho : Spec.op s1 w a with _ | o
    · exact h
    · exact h.left (step_steps h.ok (fun v => v.elim)).lift (fun st hst => keepsOwn_act hx h.reg hst a ho)
  | nobody e d q =>
    exact h.left (step_steps h.ok (fun v => v.elim)).lift (fun st hst => keepsOwn_open h.reg hst e none (by simp) d q)
  | thread p i st =>
    exact h.left (step_steps h.ok (o := .thread p i st) (fun v => v.elim)).lift (fun _ _ => keepsOwn_thread _ _ _ _ _ _)

theorem sim_run {s : ℕ} {code : Cb → ℕ → Spec.View → Spec.Code Spec.View} {others others' : ℕ → Cb → ℕ → World → Spec.Code World}
    (hc : ∀ s1 cb e w, (others s1 cb e w).Calm) (hc' : ∀ s1 cb e w, (others' s1 cb e w).Calm) (l : List Spec.Step) : ∀ {w w' : World},
    Sim s w w' → Sim s (Spec.doSteps (Spec.cast s code others) w l)
      (Spec.doSteps (Spec.cast s code others') w' (l.filter (Spec.Step.concerns s))) := by
  induction l with
  | nil => intro w w' h; exact h
  | cons x rest ih =>
    intro w w' h
    by_cases hx : x.concerns s = true
    · rw [List.filter_cons_of_pos hx]
      exact ih (sim_shared hc hc' h x hx)
    · rw [List.filter_cons_of_neg hx]
      exact ih (sim_apart _ h x (by simpa using hx))

theorem sim_refl {env : Env} {w : World} (hw : Reachable env w) {s : ℕ} (hs : s < w.strategies.length) : Sim s w w := by
  have hi := hw.regInv
  have h1 := List.getElem?_eq_getElem hs
  have hn : (w.strategies[s]).trades.Nodup := (hi.stratInc s _ h1).imp (fun h => Nat.ne_of_lt h)
  refine ⟨hi, hi, hw.epicsOk, hw.epicsOk, _, _, rfl, rfl, rfl, ⟨_, _, h1, h1, rfl, rfl, rfl, rfl⟩, rfl, hn, hn, ?_⟩
  intro i j hp
  obtain ⟨n, a, b⟩ := hp
  rw [a] at b
  injection b with b
  subst b
  have hlt := hi.stratLt s _ h1 i (List.mem_of_getElem? a)
  exact ⟨_, _, List.getElem?_eq_getElem hlt, List.getElem?_eq_getElem hlt, rfl⟩

/-- **C70**: two runs from the same reachable world with the same ticks, registrations and acts of strategy `s`: whatever the other
strategies do in their callbacks (without letting exceptions out), whatever the main program does on behalf of others or of nobody
and whenever request threads run, strategy `s` sees the same: same epics and frames, same trades of its own, same activity — also when
the strategies share a provider that nets trades. -/
theorem C70_isolation {env : Env} {w : World} (hw : Reachable env w) {s : ℕ} (hs : s < w.strategies.length)
    (code : Cb → ℕ → Spec.View → Spec.Code Spec.View) (others others' : ℕ → Cb → ℕ → World → Spec.Code World)
    (hc : ∀ s1 cb e w, (others s1 cb e w).Calm) (hc' : ∀ s1 cb e w, (others' s1 cb e w).Calm) (l l' : List Spec.Step)
    (hl : l.filter (Spec.Step.concerns s) = l'.filter (Spec.Step.concerns s)) :
    Spec.view s (Spec.doSteps (Spec.cast s code others) w l) = Spec.view s (Spec.doSteps (Spec.cast s code others') w l') := by
  have h1 := (sim_run (code := code) (others' := others) hc hc l (sim_refl hw hs)).view
  have h2 := (sim_run (code := code) (others' := others) hc' hc l' (sim_refl hw hs)).view
  rw [h1, h2, hl]

/-- The result of a strategy is a function of what it sees. -/
theorem C70_result {w : World} {s : ℕ} {st : Strategy} (hs : w.strategies[s]? = some st) :
    strategyResult (st.trades.filterMap (fun i => w.trades[i]?)) .none = strategyResult (Spec.view s w).trades .none ∧
    profitFactor (st.trades.filterMap (fun i => w.trades[i]?)) .none = profitFactor (Spec.view s w).trades .none := by
  have hv : (Spec.view s w).trades = (st.trades.filterMap (fun i => w.trades[i]?)).map Trade.blank := by
    unfold Spec.view
    rw [hs]
    dsimp only
    rw [List.map_filterMap]
  have hm : ∀ l : List Trade, (l.map Trade.blank).map Trade.result = l.map Trade.result := by
    intro l
    rw [List.map_map]
    exact List.map_congr_left (fun t _ => Trade.blank_result t)
  have hp : ∀ l : List Trade, pfSums (l.map Trade.blank) = pfSums l := by
    intro l
    unfold pfSums
    rw [List.foldl_map]
    simp only [Trade.blank_result]
  rw [hv]
  constructor
  · simp only [strategyResult, TradesArg.resolve, hm]
  · have key : ∀ a b : List Trade, pfSums a = pfSums b → profitFactor a .none = profitFactor b .none := by
      intro a b h
      have h' : pfSums (TradesArg.none.resolve a) = pfSums (TradesArg.none.resolve b) := h
      unfold profitFactor
      simp only [h']
    exact key _ _ (hp _).symm

end

/-! ## A concrete case -/

/-- Strategy 1 buys 2 on its first tick of an open market, then sells one at each tick. -/
def Demo.plan : Cb → ℕ → Spec.View → Spec.Code Spec.View := fun cb e v =>
  if cb = .everyTickOpen then .act (if v.trades = [] then .open e (some .buy) 2 else .open e (some .sell) 1) (fun _ _ => .done) else .done

/-- Others who do nothing. -/
def Demo.idlers : ℕ → Cb → ℕ → World → Spec.Code World := fun _ _ _ _ => .done

/-- Others who sell 5 at every tick of an open market and close the first trade they have. -/
def Demo.noisy : ℕ → Cb → ℕ → World → Spec.Code World := fun _ cb e _ =>
  if cb = .everyTickOpen then .act (.open e (some .sell) 5) (fun _ _ => .act (.close e 0 (some 2)) (fun _ _ => .done)) else .done

/-- Others who raise. -/
def Demo.rude : ℕ → Cb → ℕ → World → Spec.Code World := fun _ cb _ _ => if cb = .everyTickOpen then .raise .value else .done

/-- Two strategies on the same epic, with a provider that nets trades. -/
def Demo.steps : List Spec.Step := [.addStrategy 0 0, .addStrategy 0 1, .tick 0 (Demo.tk 480 10 12), .tick 0 (Demo.tk 481 11 13),
  .tick 0 (Demo.tk 482 14 16)]

/-- The same with trades of nobody, acts for strategy 0 and request threads. -/
def Demo.steps' : List Spec.Step := [.addStrategy 0 0, .addStrategy 0 1, .tick 0 (Demo.tk 480 10 12), .nobody 0 (some .sell) 7,
  .thread 0 0 none, .tick 0 (Demo.tk 481 11 13), .act 0 (.open 0 (some .sell) 9), .act 0 (.closeAll (some 1)),
  .tick 0 (Demo.tk 482 14 16), .thread 0 1 none]

example : letI := Arith.exact
    Spec.view 1 (Spec.doSteps (Spec.cast 1 Demo.plan Demo.idlers) Demo.world Demo.steps) =
      Spec.view 1 (Spec.doSteps (Spec.cast 1 Demo.plan Demo.noisy) Demo.world Demo.steps') := by
  letI := Arith.exact
  refine C70_isolation (Demo.reachable (fun _ _ _ _ => .done) []) (by decide) _ _ _ ?_ ?_ _ _ ?_
  · intro _ _ _ _; trivial
  · intro _ cb _ _
    unfold Demo.noisy
    split_ifs
    · exact fun _ _ _ _ => trivial
    · trivial
  · rfl

/-- In that case the strategy holds one trade, bought 2 at 12, of which one unit was closed at 11 and one at 14, while the others have up
to six trades with the same provider. -/
example : letI := Arith.exact
    let v := Spec.view 1 (Spec.doSteps (Spec.cast 1 Demo.plan Demo.noisy) Demo.world Demo.steps')
    (v.trades.map Trade.openQty, v.trades.map Trade.openedQty, v.trades.map Trade.result) = ([2], [0], [1]) ∧
    (Spec.doSteps (Spec.cast 1 Demo.plan Demo.noisy) Demo.world Demo.steps').providers.map (fun p => p.trades.length) = [6] := by
  decide +kernel

/-- Others who let an exception out prevent the strategy from being called: hence the hypothesis. -/
theorem C70_raising : letI := Arith.exact
    (Spec.view 1 (Spec.doSteps (Spec.cast 1 Demo.plan Demo.rude) Demo.world Demo.steps)).trades = [] ∧
    (Spec.view 1 (Spec.doSteps (Spec.cast 1 Demo.plan Demo.idlers) Demo.world Demo.steps)).trades ≠ [] := by
  decide +kernel

end Estrade
