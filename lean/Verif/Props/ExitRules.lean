import Verif.Props.Loops
import Verif.Props.StopLoss

/-!
# C100: rules by which a strategy leaves its trades (stop loss, take profit, trailing stop, indicators)
-/

set_option linter.style.haveILetI false
set_option linter.unusedSectionVars false
set_option autoImplicit false

namespace Estrade

section
variable [Arith]

/-- Spec: the body `if rule(trade): self.close_trade(trade)` of a loop over trades; the rule looks at the trade and at the epics (their last ticks, frames and
indicators); exceptions go on. -/
def Spec.exitBody (X : List Epic → Trade → Bool) (i : ℕ) (w : World) : Prog :=
  match w.trades[i]? with
  | none => .raise .attr
  | some t => if X w.epics t then .act (.closeTrade t.epic i none) fun _ e => match e with
      | none => .done
      | some e => .raise e
    else .done

/-- Spec: the loop `for trade in self.get_trades(epics=es, open_only=True): if rule(trade): self.close_trade(trade)`. -/
def Spec.exitLoop (X : List Epic → Trade → Bool) (s : ℕ) (es : Option (List ℕ)) (n : ℕ) (w : World) : GenRun :=
  (GenProg.forEach (Spec.exitBody X) n).run (Gen.new s es true none) w

/-- Spec: trade `t`, revalued and closed completely at the last tick of its epic: at the bid for a purchase, at the ask for a sale. -/
def Spec.exited (E : List Epic) (t : Trade) : Trade :=
  match E[t.epic]? with
  | none => t
  | some ep => { Spec.repriced t ep.lastTick with
      closes := t.closes ++ [⟨Spec.exitQuote t.dir ep.lastTick, t.openQty - (t.closes.map TradeClose.qty).sum, ep.lastTick.dt, .created⟩] }

theorem closeFromTick_exited {E : List Epic} {t : Trade} {ep : Epic} (he : E[t.epic]? = some ep) (h : Spec.IsOpen t) :
    t.closeFromTick ep.lastTick none = Spec.exited E t := by
  unfold Trade.closeFromTick Spec.exited
  rw [he]
  simp only
  rw [updateFromTick_open t _ h]
  unfold Trade.close Spec.repriced
  simp only [Trade.closeQty_none]
  rfl

theorem exited_closed {E : List Epic} {t : Trade} {ep : Epic} (he : E[t.epic]? = some ep) : ¬ Spec.IsOpen (Spec.exited E t) := by
  unfold Spec.IsOpen Spec.exited
  rw [he]
  simp [Spec.repriced]

/-- What the loop leaves: only trades and requests differ, and these as the rule says. -/
structure Exits (X : List Epic → Trade → Bool) (es : Option (List ℕ)) (own : List ℕ) (w w' : World) : Prop where
  epics : w'.epics = w.epics
  strategies : w'.strategies = w.strategies
  log : w'.log = w.log
  books : w'.providers.map Provider.trades = w.providers.map Provider.trades
  length : w'.trades.length = w.trades.length
  trades : ∀ i t, w.trades[i]? = some t → w'.trades[i]? =
    some (if i ∈ own ∧ Spec.selected es true t = true ∧ X w.epics t = true then Spec.exited w.epics t else t)

theorem exitLoop_left (X : List Epic → Trade → Bool) (g : Gen) (hgo : g.openOnly = true) (hga : g.onlyAfter = none) (own : List ℕ) (hnd : own.Nodup) :
    ∀ (m : ℕ) (w : World), Begins g.strategy own w → (∀ i ∈ own, ∃ t ep, w.trades[i]? = some t ∧ w.epics[t.epic]? = some ep) → m ≤ own.length →
      ∀ n, m < n → ((GenProg.forEach (Spec.exitBody X) n).run { g with left := some m } w).err = none ∧
        Exits X g.epics (own.take m) w ((GenProg.forEach (Spec.exitBody X) n).run { g with left := some m } w).world := by
  intro m
  induction m with
  | zero =>
    intro w hbg _ hm n hn
    obtain ⟨n, rfl⟩ : ∃ k, n = k + 1 := ⟨n - 1, by omega⟩
    have hrun : (GenProg.forEach (Spec.exitBody X) (n + 1)).run { g with left := some 0 } w = ⟨w, none, [(w, none)]⟩ := by
      conv_lhs => unfold GenProg.forEach GenProg.run
      rw [next_left { g with left := some 0 } w hbg hm rfl]
      rfl
    rw [hrun]
    exact ⟨rfl, rfl, rfl, rfl, rfl, rfl, fun i t ht => by simpa using ht⟩
  | succ m ih =>
    intro w hbg hok hm n hn
    obtain ⟨n, rfl⟩ : ∃ k, n = k + 1 := ⟨n - 1, by omega⟩
    have hlt : m < own.length := by omega
    have h1 : own[m]? = some own[m] := List.getElem?_eq_getElem hlt
    obtain ⟨t, ep, ht, hep⟩ := hok _ (List.getElem_mem hlt)
    have htake : own.take (m + 1) = own.take m ++ [own[m]] := by rw [List.take_add_one, h1]; rfl
    have hnot : own[m] ∉ own.take m := by
      have : (own.take (m + 1)).Nodup := hnd.sublist (List.take_sublist _ _)
      rw [htake, List.nodup_append] at this
      intro hc
      exact this.2.2 _ hc _ (by simp) rfl
    have hmem : own[m] ∈ own := List.getElem_mem hlt
    rw [htake]
    generalize own[m] = i at *
    have hsc : ∀ a k, ({ g with left := a } : Gen).scan w own k = g.scan w own k := by
      intro a k
      induction k with
      | zero => rfl
      | succ k ih => unfold Gen.scan; rw [ih]
    have hs : g.scan w own (m + 1) = if Spec.selected g.epics true t = true then .ok (some i, m) else g.scan w own m := by
      conv_lhs => unfold Gen.scan
      simp only [h1, ht, hgo, hga, closed_not]
      rfl
    by_cases hsel : Spec.selected g.epics true t = true
    · rw [if_pos hsel] at hs
      have hopen : Spec.IsOpen t := by
        unfold Spec.selected at hsel
        simp only [Bool.and_eq_true, Bool.not_true, Bool.false_or, decide_eq_true_eq] at hsel
        exact hsel.2
      -- the body
      obtain ⟨u, hbody, hux⟩ : ∃ u, (Spec.exitBody X i w).run w = (u, none) ∧ Exits X g.epics [i] w u := by
        unfold Spec.exitBody
        rw [ht]
        simp only
        by_cases hX : X w.epics t = true
        · rw [if_pos hX]
          obtain ⟨u, hu⟩ : ∃ u, w.closeTrade t.epic i none = .ok u := by
            unfold World.closeTrade
            rw [hep]
            exact closeOn_ok ht hep
          have hu' : w.closeOn ep.provider i none = .ok u := by
            unfold World.closeTrade at hu
            rw [hep] at hu; exact hu
          obtain ⟨x, epx, hx, hepx, hus⟩ := closeOn_eq hu'
          rw [ht] at hx; injection hx with hx; subst hx
          refine ⟨u, ?_, by rw [hus]; rfl, by rw [hus]; rfl, by rw [hus]; rfl, ?_, ?_, ?_⟩
          · unfold Prog.run
            show Prog.run (match (orKeep w (w.closeTrade t.epic i none)).2 with | none => .done | some e => .raise e) (orKeep w (w.closeTrade t.epic i none)).1 = _
            rw [hu]; rfl
          · rw [hus]
            exact map_modify_eq Provider.trades w.providers ep.provider _ (fun _ => rfl)
          · rw [hus]
            show (w.trades.set i _).length = _
            rw [List.length_set]
          · intro j y hy
            rw [hus]
            show (w.trades.set i _)[j]? = _
            rw [List.getElem?_set]
            by_cases hij : i = j
            · subst hij
              rw [ht] at hy; injection hy with hy; subst hy
              rw [if_pos rfl, if_pos (getElem?_lt ht), if_pos ⟨by simp, hsel, hX⟩, closeFromTick_exited hepx hopen]
            · rw [if_neg hij, if_neg (by rintro ⟨hc, -⟩; exact hij (List.mem_singleton.mp hc).symm), hy]
        · rw [if_neg hX]
          refine ⟨w, rfl, rfl, rfl, rfl, rfl, rfl, fun j y hy => ?_⟩
          rw [if_neg ?_, hy]
          rintro ⟨hc, -, hX'⟩
          have : j = i := by simpa using hc
          subst this
          rw [ht] at hy; injection hy with hy; subst hy
          exact hX hX'
      have hbg' : Begins g.strategy own u := by
        obtain ⟨st, s1, s2, s3⟩ := hbg
        exact ⟨st, by rw [hux.strategies]; exact s1, s2, fun j hj => by rw [hux.length]; exact s3 j hj⟩
      have hepic : ∀ (y : Trade), (Spec.exited w.epics y).epic = y.epic := by
        intro y
        unfold Spec.exited
        split <;> rfl
      obtain ⟨e1, e2⟩ := ih u hbg' (fun j hj => by
        obtain ⟨a, b, a1, b1⟩ := hok j hj
        refine ⟨_, b, hux.trades j a a1, ?_⟩
        rw [hux.epics]
        split_ifs
        · rw [hepic]; exact b1
        · exact b1) (by omega) n (by omega)
      have hrun : (GenProg.forEach (Spec.exitBody X) (n + 1)).run { g with left := some (m + 1) } w =
          { (GenProg.forEach (Spec.exitBody X) n).run { g with left := some m } u with
            calls := (w, some i) :: ((GenProg.forEach (Spec.exitBody X) n).run { g with left := some m } u).calls } := by
        conv_lhs => unfold GenProg.forEach GenProg.run
        rw [next_left { g with left := some (m + 1) } w hbg hm rfl, hsc, hs]
        show ({ ((Spec.exitBody X i w).andGen (GenProg.forEach (Spec.exitBody X) n)).run { g with left := some m } w with
          calls := (w, some i) :: (((Spec.exitBody X i w).andGen (GenProg.forEach (Spec.exitBody X) n)).run { g with left := some m } w).calls } : GenRun) = _
        rw [andGen_run, hbody]
      rw [hrun]
      refine ⟨e1, e2.epics.trans hux.epics, e2.strategies.trans hux.strategies, e2.log.trans hux.log, e2.books.trans hux.books, e2.length.trans hux.length,
        fun j y hy => ?_⟩
      have hz := e2.trades j _ (hux.trades j y hy)
      rw [hz]
      by_cases hj : j = i
      · subst hj
        rw [if_neg (fun hc => hnot hc.1)]
        simp
      · have : ¬ (j ∈ [i] ∧ Spec.selected g.epics true y = true ∧ X w.epics y = true) := by
          rintro ⟨hc, -⟩; exact hj (by simpa using hc)
        rw [if_neg this, hux.epics]
        congr 1
        simp [hj]
    · rw [if_neg hsel] at hs
      obtain ⟨e1, e2⟩ := ih w hbg hok (by omega) (n + 1) (by omega)
      have : (GenProg.forEach (Spec.exitBody X) (n + 1)).run { g with left := some (m + 1) } w =
          (GenProg.forEach (Spec.exitBody X) (n + 1)).run { g with left := some m } w := by
        unfold GenProg.forEach GenProg.run
        rw [next_left { g with left := some (m + 1) } w hbg hm rfl, next_left { g with left := some m } w hbg (by omega) rfl,
          hsc (some (m + 1)), hsc (some m), hs]
      rw [this]
      refine ⟨e1, e2.epics, e2.strategies, e2.log, e2.books, e2.length, fun j y hy => ?_⟩
      rw [e2.trades j y hy]
      congr 1
      by_cases hj : j = i
      · subst hj
        rw [ht] at hy; injection hy with hy; subst hy
        rw [if_neg (fun hc => hsel hc.2.1), if_neg (fun hc => hsel hc.2.1)]
      · simp [hj]

theorem exitLoop_exits (X : List Epic → Trade → Bool) {w : World} (hi : RegInv w) {s : ℕ} {st : Strategy} (hs : w.strategies[s]? = some st)
    (es : Option (List ℕ)) (n : ℕ) (hn : st.trades.length < n) :
    (Spec.exitLoop X s es n w).err = none ∧ Exits X es st.trades w (Spec.exitLoop X s es n w).world := by
  have hex := hi.stratLt s st hs
  obtain ⟨n, rfl⟩ : ∃ k, n = k + 1 := ⟨n - 1, by omega⟩
  have h := exitLoop_left X (Gen.new s es true none) rfl rfl st.trades ((hi.stratInc s st hs).imp (fun h => ne_of_lt h)) st.trades.length w
    ⟨st, hs, List.prefix_refl _, hex⟩ (fun i him => by
      obtain ⟨ep, hep⟩ := hi.epicOk i _ (List.getElem?_eq_getElem (hex i him))
      exact ⟨_, ep, List.getElem?_eq_getElem (hex i him), hep⟩) le_rfl (n + 1) hn
  unfold Spec.exitLoop
  rw [forEach_fresh (Spec.exitBody X) (Gen.new s es true none) w hs rfl n]
  rw [List.take_length] at h
  exact h

/-- C100: a loop that closes the open trades of a strategy (on some epics, or on all) for which a rule holds raises nothing.  It closes exactly the trades
for which the rule holds when the loop begins, completely, each at the bid or ask of the last tick of its epic; every other trade is left as it is, and so
are epics, strategies, the lists of the providers and what was notified.  Afterwards no open trade of the strategy on these epics satisfies the rule. -/
theorem C100_loop (X : List Epic → Trade → Bool) {env : Env} {w : World} (hw : Reachable env w) {s : ℕ} {st : Strategy} (hs : w.strategies[s]? = some st)
    (es : Option (List ℕ)) (n : ℕ) (hn : st.trades.length < n) :
    (Spec.exitLoop X s es n w).err = none ∧
    (∀ i t, w.trades[i]? = some t → (Spec.exitLoop X s es n w).world.trades[i]? =
      some (if i ∈ st.trades ∧ (∀ l, es = some l → t.epic ∈ l) ∧ Spec.IsOpen t ∧ X w.epics t = true then Spec.exited w.epics t else t)) ∧
    (Spec.exitLoop X s es n w).world.trades.length = w.trades.length ∧
    (Spec.exitLoop X s es n w).world.epics = w.epics ∧ (Spec.exitLoop X s es n w).world.strategies = w.strategies ∧
    (Spec.exitLoop X s es n w).world.log = w.log ∧
    (Spec.exitLoop X s es n w).world.providers.map Provider.trades = w.providers.map Provider.trades ∧
    ∀ i ∈ st.trades, ∀ t, (Spec.exitLoop X s es n w).world.trades[i]? = some t → (∀ l, es = some l → t.epic ∈ l) → Spec.IsOpen t → X w.epics t = false := by
  obtain ⟨h1, h2⟩ := exitLoop_exits X hw.regInv hs es n hn
  have hsel : ∀ t, Spec.selected es true t = true ↔ (∀ l, es = some l → t.epic ∈ l) ∧ Spec.IsOpen t := by
    intro t
    unfold Spec.selected
    rcases es with _ | l <;> simp
  have htr : ∀ i t, w.trades[i]? = some t → (Spec.exitLoop X s es n w).world.trades[i]? =
      some (if i ∈ st.trades ∧ (∀ l, es = some l → t.epic ∈ l) ∧ Spec.IsOpen t ∧ X w.epics t = true then Spec.exited w.epics t else t) := by
    intro i t ht
    rw [h2.trades i t ht]
    congr 1
    by_cases hc : i ∈ st.trades ∧ Spec.selected es true t = true ∧ X w.epics t = true
    · rw [if_pos hc, if_pos ⟨hc.1, ((hsel t).mp hc.2.1).1, ((hsel t).mp hc.2.1).2, hc.2.2⟩]
    · rw [if_neg hc, if_neg (fun h => hc ⟨h.1, (hsel t).mpr ⟨h.2.1, h.2.2.1⟩, h.2.2.2⟩)]
  refine ⟨h1, htr, h2.length, h2.epics, h2.strategies, h2.log, h2.books, fun i hi t ht hl ho => ?_⟩
  have hlt := hw.regInv.stratLt s st hs i hi
  have hy : w.trades[i]? = some w.trades[i] := List.getElem?_eq_getElem hlt
  have hz := htr i _ hy
  rw [ht] at hz
  injection hz with hz
  split_ifs at hz with hc
  · obtain ⟨ep, hep⟩ := hw.regInv.epicOk i _ hy
    rw [hz] at ho
    exact absurd ho (exited_closed hep)
  · rw [hz] at hl ho ⊢
    by_contra hX
    exact hc ⟨hi, hl, ho, by simpa using hX⟩

/-! ## On every tick -/

/-- Spec: `on_every_tick` of strategy `s` is the loop over its open trades on the epic of the callback. -/
def Spec.ExitsBy (env : Env) (s : ℕ) (X : List Epic → Trade → Bool) : Prop :=
  ∀ e w st, w.strategies[s]? = some st → ∃ n, st.trades.length < n ∧
    env s .everyTick e w = (GenProg.forEach (Spec.exitBody X) n).prog (Gen.new s (some [e]) true none) w

/-- A tick after which nothing raised. -/
theorem onNewTick_done (env : Env) (w : World) (e : ℕ) (k : Tick) (hn : (w.onNewTick env e k).2 = none) :
    ∃ ep w1, w.epics[e]? = some ep ∧ WSteps False w w1 ∧ w1.strategies = w.strategies ∧ w.onNewTick env e k =
      execStrategies env e ep.marketOpen (Spec.localTick ep.zone k).dt w1 (ep.strategies.map Prod.snd) := by
  unfold World.onNewTick at hn ⊢
  rcases hep : w.epics[e]? with _ | ep
  · rw [hep] at hn; cases hn
  · rw [hep] at hn
    simp only at hn ⊢
    split_ifs at hn ⊢
    rcases hacc : (ep.accept { k with dt := k.dt.to ep.zone }).2 with _ | err
    · simp only [hacc] at hn ⊢
      refine ⟨ep, _, rfl, ?_, ?_, rfl⟩
      · have h1 : WSteps False w { w with epics := w.epics.set e (ep.accept { k with dt := k.dt.to ep.zone }).1, log := w.log ++ [.accepted e { k with dt := k.dt.to ep.zone }] } :=
          .head (.epics (w.epics.set e (ep.accept { k with dt := k.dt.to ep.zone }).1) (map_provider_set _ _ _ _ hep rfl)) (.single (.log _))
        exact h1.trans (updateOpenTrades_steps _ ep.provider { k with dt := k.dt.to ep.zone }).lift
      · exact (updateOpenTrades_rest _ ep.provider { k with dt := k.dt.to ep.zone }).2.2.1
    · simp only [hacc] at hn
      cases hn

theorem WSteps.regInv {V : Prop} {w w' : World} (h : WSteps V w w') (hi : RegInv w) : RegInv w' := h.inv (fun _ _ hi h => h.regInv hi) hi

theorem execStrategies_last {env : Env} {e : ℕ} {b : Bool} {dt : DT} (l : List ℕ) (s : ℕ) : ∀ {w : World}, (execStrategies env e b dt w (l ++ [s])).2 = none →
    (execStrategies env e b dt w l).2 = none ∧
      execStrategies env e b dt w (l ++ [s]) = (execStrategies env e b dt w l).1.execStrategy env e s b dt := by
  induction l with
  | nil =>
    intro w hn
    refine ⟨rfl, ?_⟩
    show andThen (w.execStrategy env e s b dt) (fun w => execStrategies env e b dt w []) = w.execStrategy env e s b dt
    rcases andThen_cases (w.execStrategy env e s b dt) (fun w => execStrategies env e b dt w []) with ⟨h0, hh⟩ | ⟨hne, hh⟩
    · rw [hh]
      show (_, _) = _
      rw [← h0]
    · exact hh
  | cons a l ih =>
    intro w hn
    rw [List.cons_append] at hn ⊢
    unfold execStrategies at hn ⊢
    rcases andThen_cases (w.execStrategy env e a b dt) (fun w => execStrategies env e b dt w (l ++ [s])) with ⟨h0, hh⟩ | ⟨hne, hh⟩
    · rw [hh] at hn ⊢
      obtain ⟨h1, h2⟩ := ih hn
      rcases andThen_cases (w.execStrategy env e a b dt) (fun w => execStrategies env e b dt w l) with ⟨-, hg⟩ | ⟨hne, -⟩
      · rw [hg]; exact ⟨h1, h2⟩
      · exact absurd h0 hne
    · rw [hh] at hn; exact absurd hn hne

/-- What holds of the trades of `s` on `e` after its turn. -/
def Left (X : List Epic → Trade → Bool) (s e : ℕ) (w : World) : Prop :=
  ∀ st, w.strategies[s]? = some st → ∀ i ∈ st.trades, ∀ t, w.trades[i]? = some t → t.epic = e → Spec.IsOpen t → X w.epics t = false

theorem turn_left {env : Env} {s : ℕ} {X : List Epic → Trade → Bool} (hx : Spec.ExitsBy env s X) (hu : Spec.Untouched env s) {w : World} (hf : StratP w s Free)
    (hi : RegInv w) (ho : EpicsOk w) (e : ℕ) (b : Bool) (dt : DT) (hn : (w.execStrategy env e s b dt).2 = none) :
    Left X s e (w.execStrategy env e s b dt).1 := by
  have hstep : ∀ {w' : World}, WSteps False w w' → RegInv w' ∧ EpicsOk w' := fun h => ⟨h.regInv hi, h.epicsOk ho⟩
  obtain ⟨st, h1, h2⟩ := hf
  unfold World.execStrategy at hn ⊢
  rw [h1] at hn ⊢
  dsimp only at hn ⊢
  rw [if_pos ((isActive_iff st dt).mpr (h2.active dt))] at hn ⊢
  have hw1 : WPrim False w ({ w with strategies := w.strategies.set s (st.isActive dt).2 } : World) := by
    have : ({ w with strategies := w.strategies.set s (st.isActive dt).2 } : World) = w.modStrategy s (fun st => (st.isActive dt).2) := by
      unfold World.modStrategy
      rw [set_eq_modify _ _ _ (fun st => (st.isActive dt).2) h1]
    rw [this]
    exact .prim (.strat s _ (fun st => ⟨(isActive_keeps st dt).1, (isActive_keeps st dt).2.1⟩))
  have hf1 : StratP ({ w with strategies := w.strategies.set s (st.isActive dt).2 } : World) s Free :=
    ⟨_, by show (w.strategies.set s _)[s]? = _; rw [List.getElem?_set, if_pos rfl, if_pos (getElem?_lt h1)], h2.isActive dt⟩
  have hg1 := hstep (.single hw1)
  revert hn hg1 hf1
  clear hw1
  generalize ({ w with strategies := w.strategies.set s (st.isActive dt).2 } : World) = w1
  intro hn hf1 hg1
  have hk := hu.keeps (P := Free) free_switches
  have hif : ∀ (u : World) (c : Bool) (cb : Cb), (RegInv u ∧ EpicsOk u) ∧ StratP u s Free →
      (RegInv (u.callIf env c s cb e).1 ∧ EpicsOk (u.callIf env c s cb e).1) ∧ StratP (u.callIf env c s cb e).1 s Free := by
    intro u c cb hu
    have hs := callIf_steps (V := False) (env := env) (fun v => v.elim) hu.1.2 c s cb e
    exact ⟨⟨hs.regInv hu.1.1, hs.epicsOk hu.1.2⟩, callIf_keeps hk u hu.2 c s cb e⟩
  have hthen : ∀ (r : World × Option PyErr) (f : World → World × Option PyErr), (andThen r f).2 = none → ((RegInv r.1 ∧ EpicsOk r.1) ∧ StratP r.1 s Free) →
      (∀ u, (f u).2 = none → ((RegInv u ∧ EpicsOk u) ∧ StratP u s Free) → Left X s e (f u).1) → Left X s e (andThen r f).1 := by
    intro r f hr ha hf
    rcases andThen_cases r f with ⟨-, h⟩ | ⟨hne, h⟩
    · rw [h] at hr ⊢; exact hf _ hr ha
    · rw [h] at hr; exact absurd hr hne
  unfold World.notifyAll at hn ⊢
  refine hthen _ _ hn (hif _ _ _ ⟨hg1, hf1⟩) (fun u hn hu => ?_)
  refine hthen _ _ hn (hif _ _ _ hu) (fun u hn hu => ?_)
  refine hthen _ _ hn (hif _ _ _ hu) (fun u hn hu => ?_)
  clear hn
  obtain ⟨⟨hr, -⟩, st', g1, -⟩ := hu
  unfold World.call
  dsimp only
  obtain ⟨n, hlen, henv⟩ := hx e { u with log := u.log ++ [.notify s e .everyTick] } st' g1
  rw [henv, C96_callback]
  dsimp only
  have hr' : RegInv ({ u with log := u.log ++ [.notify s e .everyTick] } : World) := WPrim.regInv (V := False) hr (.log _)
  have hst : ({ u with log := u.log ++ [.notify s e .everyTick] } : World).strategies[s]? = some st' := g1
  revert hr' hst
  generalize ({ u with log := u.log ++ [.notify s e .everyTick] } : World) = v
  intro hr' hst
  obtain ⟨-, hex⟩ := exitLoop_exits X hr' hst (some [e]) n hlen
  change Left X s e (Spec.exitLoop X s (some [e]) n v).world
  intro st2 hst2 i hi t ht hte hop
  rw [hex.strategies, hst] at hst2
  injection hst2 with hst2
  subst hst2
  have hlt := hr'.stratLt s _ hst i hi
  have hy : v.trades[i]? = some v.trades[i] := List.getElem?_eq_getElem hlt
  have hz := hex.trades i _ hy
  rw [ht] at hz
  injection hz with hz
  rw [hex.epics]
  split_ifs at hz with hc
  · obtain ⟨ep, hep⟩ := hr'.epicOk i _ hy
    rw [hz] at hop
    exact absurd hop (exited_closed hep)
  · rw [hz] at hte hop ⊢
    by_contra hX
    refine hc ⟨hi, ?_, by simpa using hX⟩
    unfold Spec.selected
    simp [hte, hop]

/-- C100: let `on_every_tick` of a strategy be the loop that closes its open trades on the epic for which the rule holds; let nobody stop or pause the
strategy; other callbacks of the strategy, other strategies and other code are arbitrary.  Then, if the strategy is the last one registered with the
epic, after every tick of the epic that raises nothing the rule holds for no open trade of the strategy on the epic. -/
theorem C100_tick {env : Env} {w : World} (hw : Reachable env w) {s e : ℕ} {X : List Epic → Trade → Bool} (hx : Spec.ExitsBy env s X)
    (hu : Spec.Untouched env s) {st : Strategy} (hs : w.strategies[s]? = some st) (hfree : st.stopped = false ∧ st.pausedUntil = none)
    {ep : Epic} (hep : w.epics[e]? = some ep) {l : List ℕ} (hl : ep.strategies.map Prod.snd = l ++ [s]) (k : Tick)
    (hn : (w.onNewTick env e k).2 = none) {st' : Strategy} (hs' : (w.onNewTick env e k).1.strategies[s]? = some st')
    {i : ℕ} (hi : i ∈ st'.trades) {t : Trade} (ht : (w.onNewTick env e k).1.trades[i]? = some t) (hte : t.epic = e) (ho : Spec.IsOpen t) :
    X (w.onNewTick env e k).1.epics t = false := by
  obtain ⟨ep', w1, q1, q2, q3, q4⟩ := onNewTick_done env w e k hn
  rw [hep] at q1; injection q1 with q1; subst q1
  rw [hl] at q4
  rw [q4] at hn
  obtain ⟨hok, hlast⟩ := execStrategies_last l s hn
  obtain ⟨w0, z0, z1⟩ := hw.steps
  have heo : EpicsOk w1 := q2.epicsOk (z1.epicsOk (Init.epicsOk z0))
  have hreg : RegInv w1 := q2.regInv hw.regInv
  have hsteps := execStrategies_steps (V := False) (env := env) (fun v => v.elim) e ep.marketOpen (Spec.localTick ep.zone k).dt l w1 heo
  have hf : StratP (execStrategies env e ep.marketOpen (Spec.localTick ep.zone k).dt w1 l).1 s Free :=
    execStrategies_keeps (hu.keeps free_switches) (fun st h => h.isActive _) l w1 ⟨st, by rw [q3]; exact hs, hfree⟩ e _
  rw [hlast] at hn
  have := turn_left hx hu hf (hsteps.regInv hreg) (hsteps.epicsOk heo) e ep.marketOpen (Spec.localTick ep.zone k).dt hn
  rw [← hlast, ← q4] at this
  exact this st' hs' i hi t ht hte ho

/-- C100: a take-profit.  The loop closes trades whose result has reached `P`: after such a tick every open trade of the strategy on the epic is below. -/
theorem C100_take_profit {env : Env} {w : World} (hw : Reachable env w) {s e : ℕ} {P : ℚ} (hx : Spec.ExitsBy env s (fun _ t => decide (P ≤ t.result)))
    (hu : Spec.Untouched env s) {st : Strategy} (hs : w.strategies[s]? = some st) (hfree : st.stopped = false ∧ st.pausedUntil = none)
    {ep : Epic} (hep : w.epics[e]? = some ep) {l : List ℕ} (hl : ep.strategies.map Prod.snd = l ++ [s]) (k : Tick)
    (hn : (w.onNewTick env e k).2 = none) {st' : Strategy} (hs' : (w.onNewTick env e k).1.strategies[s]? = some st')
    {i : ℕ} (hi : i ∈ st'.trades) {t : Trade} (ht : (w.onNewTick env e k).1.trades[i]? = some t) (hte : t.epic = e) (ho : Spec.IsOpen t) :
    t.result < P := by
  have := C100_tick hw hx hu hs hfree hep hl k hn hs' hi ht hte ho
  simpa using this

/-- C100: a trailing stop.  The loop closes trades that have fallen by more than `d` from their best result: after such a tick every open trade of the strategy
on the epic is within `d` of it. -/
theorem C100_trailing {env : Env} {w : World} (hw : Reachable env w) {s e : ℕ} {d : ℚ} (hx : Spec.ExitsBy env s (fun _ t => decide (t.result < t.maxRes - d)))
    (hu : Spec.Untouched env s) {st : Strategy} (hs : w.strategies[s]? = some st) (hfree : st.stopped = false ∧ st.pausedUntil = none)
    {ep : Epic} (hep : w.epics[e]? = some ep) {l : List ℕ} (hl : ep.strategies.map Prod.snd = l ++ [s]) (k : Tick)
    (hn : (w.onNewTick env e k).2 = none) {st' : Strategy} (hs' : (w.onNewTick env e k).1.strategies[s]? = some st')
    {i : ℕ} (hi : i ∈ st'.trades) {t : Trade} (ht : (w.onNewTick env e k).1.trades[i]? = some t) (hte : t.epic = e) (ho : Spec.IsOpen t) :
    t.maxRes - d ≤ t.result := by
  have := C100_tick hw hx hu hs hfree hep hl k hn hs' hi ht hte ho
  simpa using this

/-- C100_tick without the condition that the strategy comes last. -/
def Spec.C100 : Prop :=
  ∀ (env : Env) (w : World), Reachable env w → ∀ (s e : ℕ) (X : List Epic → Trade → Bool), Spec.ExitsBy env s X → Spec.Untouched env s →
    ∀ st, w.strategies[s]? = some st → st.stopped = false ∧ st.pausedUntil = none → ∀ ep, w.epics[e]? = some ep → s ∈ ep.strategies.map Prod.snd →
    ∀ k, (w.onNewTick env e k).2 = none → ∀ st', (w.onNewTick env e k).1.strategies[s]? = some st' → ∀ i ∈ st'.trades, ∀ t,
      (w.onNewTick env e k).1.trades[i]? = some t → t.epic = e → Spec.IsOpen t → X (w.onNewTick env e k).1.epics t = false

/-! ## Concrete cases -/

/-- Strategy 0 buys 2 units at the first tick of the market and leaves by the rule; strategy 1 does `other` on every tick. -/
def Demo.exiter (X : List Epic → Trade → Bool) (other : World → Prog) : Env := fun s cb e w =>
  if s = 0 ∧ cb = .everyTick then
    (GenProg.forEach (Spec.exitBody X) ((w.strategies[0]?).elim 1 (fun st => st.trades.length + 1))).prog (Gen.new 0 (some [e]) true none) w
  else if s = 0 ∧ cb = .everyTickOpen then
    (if w.trades = [] then .act (.openTrade e (some 0) (some .buy) 2) (fun _ _ => .done) else .done)
  else if s = 1 ∧ cb = .everyTick then other w else .done

theorem Demo.exiter_exits (X : List Epic → Trade → Bool) (other : World → Prog) : Spec.ExitsBy (Demo.exiter X other) 0 X := by
  intro e w st hst
  refine ⟨st.trades.length + 1, by omega, ?_⟩
  unfold Demo.exiter
  rw [if_pos ⟨rfl, rfl⟩, hst]
  rfl

theorem exitLoop_all {P : Op → Prop} (X : List Epic → Trade → Bool) (h : ∀ e i, P (.closeTrade e i none)) (n : ℕ) :
    (GenProg.forEach (Spec.exitBody X) n).All P := by
  induction n with
  | zero => trivial
  | succ n ih =>
    intro w a
    rcases a with _ | i
    · trivial
    · refine andGen_all _ _ ?_ ih
      unfold Spec.exitBody
      split
      · trivial
      · split_ifs
        · refine ⟨h _ _, fun _ x => ?_⟩
          rcases x with _ | x <;> trivial
        · trivial

theorem Demo.exiter_untouched (X : List Epic → Trade → Bool) {other : World → Prog}
    (h : ∀ w, (other w).All (fun o => (∀ b, o ≠ .stop 0 b) ∧ ∀ d, o ≠ .pause 0 d)) : Spec.Untouched (Demo.exiter X other) 0 := by
  intro s cb e w
  unfold Demo.exiter
  split_ifs
  · exact genProg_all _ (exitLoop_all X (fun _ _ => ⟨by simp, by simp⟩) _) _ _
  · exact ⟨⟨by simp, by simp⟩, fun _ _ => trivial⟩
  · trivial
  · exact h w
  · trivial

/-- The trailing stop with a distance of 3. -/
def Demo.trail (_ : List Epic) (t : Trade) : Bool := decide (t.result < t.maxRes - 3)

end

/-- Strategy 1 is registered before strategy 0. -/
def Demo.exitStart : List Cmd := [.addStrategy 0 1, .addStrategy 0 0]

/-- Ticks up to a peak. -/
def Demo.exitRise : List Cmd := [.tick 0 (Demo.tk 479 99 100), .tick 0 (Demo.tk 480 100 101), .tick 0 (Demo.tk 481 104 105), .tick 0 (Demo.tk 482 103 104)]

/-- Concrete case of `C100_trailing`: the purchase at 101 rises to 104 (result 6); one less is within the distance (4), two less is not (2), and it is closed;
strategy and epic are as the theorem says. -/
example : letI := Arith.exact
    let env := Demo.exiter Demo.trail Demo.idle
    let w := Demo.world.runCmds env (Demo.exitStart ++ Demo.exitRise)
    let w' := (w.onNewTick env 0 (Demo.tk 483 102 103)).1
    w.trades.map (fun t => (t.closed, t.maxRes, t.result)) = [(false, 6, 4)] ∧ w'.trades.map (fun t => (t.closed, t.maxRes, t.result)) = [(true, 6, 2)] ∧
    (w.onNewTick env 0 (Demo.tk 483 102 103)).2 = none ∧ (w.epics[0]?).map (fun ep => ep.strategies.map Prod.snd) = some ([1] ++ [0]) ∧
    (w.strategies[0]?).map (fun st => (st.stopped, st.pausedUntil, st.trades)) = some (false, none, [0]) := by
  letI := Arith.exact
  refine ⟨?_, ?_, ?_, ?_, ?_⟩ <;> decide +kernel

/-- The hypotheses of `C100_trailing` hold in that run. -/
example : letI := Arith.exact
    ∀ env w k, env = Demo.exiter Demo.trail Demo.idle → w = Demo.world.runCmds env (Demo.exitStart ++ Demo.exitRise) → k = Demo.tk 483 102 103 →
    ∀ st', (w.onNewTick env 0 k).1.strategies[0]? = some st' → ∀ i ∈ st'.trades, ∀ t,
      (w.onNewTick env 0 k).1.trades[i]? = some t → t.epic = 0 → Spec.IsOpen t → t.maxRes - 3 ≤ t.result := by
  letI := Arith.exact
  intro env w k he hw hk st' hs' i hi t ht hte ho
  have hst : (w.strategies[0]?).map (fun st => (st.stopped, st.pausedUntil)) = some (false, none) := by clear ht hs'; subst hw he; decide +kernel
  have hep : (w.epics[0]?).map (fun ep => ep.strategies.map Prod.snd) = some ([1] ++ [0]) := by clear ht hs'; subst hw he; decide +kernel
  have hn : (w.onNewTick env 0 k).2 = none := by clear ht hs'; subst hw he hk; decide +kernel
  have hr : Reachable env w := by rw [hw]; exact Demo.reachable _ _
  have hx : Spec.ExitsBy env 0 (fun _ t => decide (t.result < t.maxRes - 3)) := by rw [he]; exact Demo.exiter_exits _ _
  have hu : Spec.Untouched env 0 := by rw [he]; exact Demo.exiter_untouched _ (fun _ => trivial)
  clear hw he hk
  obtain ⟨st, h1, h2⟩ := Option.map_eq_some_iff.mp hst
  obtain ⟨ep, h3, h4⟩ := Option.map_eq_some_iff.mp hep
  injection h2 with h2 h2'
  exact C100_trailing hr hx hu h1 ⟨h2, h2'⟩ h3 h4 _ hn hs' hi ht hte ho

/-- Concrete case of `C100_loop`: of three trades (on two epics, one of another strategy) the loop closes the one the rule is for, at the bid of the last tick. -/
example : letI := Arith.exact
    let w := Demo.world.runCmds Demo.quiet Demo.loaded
    let r := Spec.exitLoop (fun _ t => decide (-1 < t.result)) 0 none 3 w
    Reachable Demo.quiet w ∧ (w.strategies[0]?).map Strategy.trades = some [0, 2] ∧ w.trades.map (fun t => (t.epic, t.closed, t.result)) =
      [(1, false, -3), (1, false, -5), (0, false, -22)] ∧ r.err = none ∧
    r.world.trades = w.trades ∧
    (Spec.exitLoop (fun _ t => decide (-4 < t.result)) 0 none 3 w).world.trades.map (fun t => (t.epic, t.closed, t.closes.map TradeClose.closeValue)) =
      [(1, true, [11]), (1, false, []), (0, false, [])] := by
  letI := Arith.exact
  refine ⟨Demo.reachable _ _, by decide +kernel, by decide +kernel, by decide +kernel, by decide +kernel, by decide +kernel⟩

/-- Concrete case of `C100_take_profit`: the trade is sold when its result reaches 5. -/
example : letI := Arith.exact
    let env := Demo.exiter (fun _ t => decide (5 ≤ t.result)) Demo.idle
    (Demo.world.runCmds env (Demo.exitStart ++ Demo.exitRise)).trades.map (fun t => (t.closed, t.result)) = [(true, 6)] := by
  letI := Arith.exact
  decide +kernel

/-- Strategy 1 revalues trade 0 at 90 by itself. -/
def Demo.revaluer (_ : World) : Prog := .act (.update 0 90) (fun _ _ => .done)

/-- C100_tick fails for a strategy that is not the last one: a later strategy revalues its trade. -/
theorem C100_last_false : ¬ @Spec.C100 Arith.exact := by
  letI := Arith.exact
  intro h
  obtain ⟨env, he⟩ : ∃ env, env = Demo.exiter Demo.trail Demo.revaluer := ⟨_, rfl⟩
  obtain ⟨w, hw⟩ : ∃ w, w = Demo.world.runCmds env [.addStrategy 0 0, .addStrategy 0 1, .tick 0 (Demo.tk 479 99 100)] := ⟨_, rfl⟩
  obtain ⟨k, hk⟩ : ∃ k, k = Demo.tk 480 100 101 := ⟨_, rfl⟩
  have hst : (w.strategies[0]?).map (fun st => (st.stopped, st.pausedUntil)) = some (false, none) := by subst hw he; decide +kernel
  have hep : (w.epics[0]?).map (fun ep => ep.strategies.map Prod.snd) = some [0, 1] := by subst hw he; decide +kernel
  have hn : (w.onNewTick env 0 k).2 = none := by subst hw he hk; decide +kernel
  have hst' : ((w.onNewTick env 0 k).1.strategies[0]?).map Strategy.trades = some [0] := by subst hw he hk; decide +kernel
  have htr : ((w.onNewTick env 0 k).1.trades[0]?).map (fun t => (t.epic, decide (Spec.IsOpen t), Demo.trail [] t)) = some (0, true, true) := by
    subst hw he hk; decide +kernel
  have hr : Reachable env w := by rw [hw]; exact Demo.reachable _ _
  have hx : Spec.ExitsBy env 0 Demo.trail := by rw [he]; exact Demo.exiter_exits _ _
  have hu : Spec.Untouched env 0 := by rw [he]; exact Demo.exiter_untouched _ (fun _ => ⟨⟨by simp, by simp⟩, fun _ _ => trivial⟩)
  clear hw he hk
  obtain ⟨st, h1, h2⟩ := Option.map_eq_some_iff.mp hst
  obtain ⟨ep, h3, h4⟩ := Option.map_eq_some_iff.mp hep
  injection h2 with h2 h2'
  obtain ⟨st', g1, g2⟩ := Option.map_eq_some_iff.mp hst'
  obtain ⟨t, g3, g4⟩ := Option.map_eq_some_iff.mp htr
  injection g4 with g4 g5
  injection g5 with g5 g6
  have := h env w hr 0 0 Demo.trail hx hu st h1 ⟨h2, h2'⟩ ep h3 (by rw [h4]; simp) k hn st' g1 0 (by rw [g2]; simp) t g3 g4 (of_decide_eq_true g5)
  change Demo.trail [] t = false at this
  rw [this] at g6
  cases g6

end Estrade
