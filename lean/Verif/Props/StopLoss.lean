import Verif.Lemmas.StopLoss
import Verif.Props.Interleave

/-!
# C94: a strategy that closes losing trades on every tick loses no more than the limit and one jump of the market per trade
-/

set_option linter.style.haveILetI false
set_option linter.unusedSectionVars false
set_option autoImplicit false

namespace Estrade

section
variable [Arith]

/-- Spec: while the commands run, accepted ticks of epic `e` are quoted in cents with a spread of at most `σ`, and move neither side by more than
`g` from the tick before. -/
def Spec.Jumps (env : Env) (e : ℕ) (σ g : ℚ) : World → List Cmd → Prop
  | _, [] => True
  | w, c :: l =>
    (∀ k ep, c = .tick e k → w.epics[e]? = some ep → (Spec.localTick ep.zone k).dt.lt ep.lastTick.dt = false →
      IsCent k.bid ∧ IsCent k.ask ∧ k.ask - k.bid ≤ σ ∧ |k.bid - ep.lastTick.bid| ≤ g ∧ |k.ask - ep.lastTick.ask| ≤ g) ∧
    Spec.Jumps env e σ g (w.exec env c).1 l

/-- Spec: the strategy is registered with epic `e`, has no trades on it yet, and the last tick of `e` is quoted in cents with a spread of at most
`σ`. -/
structure Spec.Starts (w : World) (s e : ℕ) (σ : ℚ) : Prop where
  epic : ∃ ep, w.epics[e]? = some ep ∧ s ∈ ep.strategies.map Prod.snd ∧ IsCent ep.lastTick.bid ∧ IsCent ep.lastTick.ask ∧
    ep.lastTick.ask - ep.lastTick.bid ≤ σ
  none : ∀ t ∈ w.trades, t.strategy = some s → t.epic ≠ e

theorem FramesHold.tail {env : Env} (l1 : List Cmd) {l2 : List Cmd} : ∀ {w : World}, Spec.FramesHold env w (l1 ++ l2) →
    Spec.FramesHold env (w.runCmds env l1) l2 := by
  induction l1 with
  | nil => intro w h; exact h
  | cons c l ih => intro w h; exact ih h.2

/-- The invariant between commands. -/
structure StopInv (s e : ℕ) (L σ g : ℚ) (w : World) : Prop where
  guarded : GuardedInv True s e L σ g w
  free : StratP w s Free
  registered : ∃ ep, w.epics[e]? = some ep ∧ s ∈ ep.strategies.map Prod.snd

theorem StopInv.exec (hE : Exact) {s e : ℕ} {L σ g : ℚ} (hg : 0 ≤ g) {env : Env}
    (henv : ∀ s cb e w, (env s cb e w).All (fun o => o.Indirect ∧ o.Valid)) (hstop : Spec.StopLoss env s L) (hu : Spec.Untouched env s)
    {w : World} (h : StopInv s e L σ g w) (c : Cmd) (hop : ∀ o, c = .op o → o.Indirect ∧ o.Valid)
    (hcu : (∀ b, c ≠ .op (.stop s b)) ∧ ∀ d, c ≠ .op (.pause s d)) (hquote : ∀ e k, c = .tick e k → (k.bid = 0 ↔ k.ask = 0))
    (hfs : ∀ e k ep, c = .tick e k → w.epics[e]? = some ep → (Spec.localTick ep.zone k).dt.lt ep.lastTick.dt = false →
      (ep.accept (Spec.localTick ep.zone k)).2 = none)
    (hj : ∀ k ep, c = .tick e k → w.epics[e]? = some ep → (Spec.localTick ep.zone k).dt.lt ep.lastTick.dt = false →
      IsCent k.bid ∧ IsCent k.ask ∧ k.ask - k.bid ≤ σ ∧ |k.bid - ep.lastTick.bid| ≤ g ∧ |k.ask - ep.lastTick.ask| ≤ g)
    (hn : ∀ k, c = .tick e k → ∀ ep, w.epics[e]? = some ep → (Spec.localTick ep.zone k).dt.lt ep.lastTick.dt = false →
      (w.onNewTick env e k).2 = none) : StopInv s e L σ g (w.exec env c).1 := by
  obtain ⟨x, x1, x2⟩ := h.registered
  have hk := hu.keeps (P := Free) free_switches
  have hreg : ∃ ep, (w.exec env c).1.epics[e]? = some ep ∧ s ∈ ep.strategies.map Prod.snd := by
    obtain ⟨ep', g1, g2⟩ := exec_hours env w c e x x1
    exact ⟨ep', g1, g2.regs s x2⟩
  have hfree : StratP (w.exec env c).1 s Free := by
    by_cases hc' : ∃ e t, c = .tick e t
    · obtain ⟨e0, k, rfl⟩ := hc'
      exact tick_keeps hk (fun _ _ st hst => hst.isActive _) h.free
    · push Not at hc'
      exact exec_nontick_keeps env w c hc' hcu free_switches h.free
  refine ⟨?_, hfree, hreg⟩
  by_cases hc : ∀ e t, c ≠ .tick e t
  · by_cases hc' : ∃ o, c = .op o
    · obtain ⟨o, rfl⟩ := hc'
      exact step_guarded hE hg w o (hop o rfl) h.guarded
    · have hM := exec_marked henv w c hop hquote hfs h.guarded.marked
      refine ⟨hM, ?_, by rw [(exec_registration env w c hc hc').1]; exact h.guarded.mine⟩
      intro y hy
      obtain ⟨z, z1, z2⟩ := (exec_other env w c hc).2.back hy
      rw [z2.last]
      exact h.guarded.tight z z1
  · push Not at hc
    obtain ⟨e', k, rfl⟩ := hc
    show GuardedInv True s e L σ g (w.onNewTick env e' k).1
    rcases hep : w.epics[e']? with _ | ep
    · unfold World.onNewTick; rw [hep]; exact h.guarded
    · rcases hlt : (Spec.localTick ep.zone k).dt.lt ep.lastTick.dt with _ | _
      · have heq := onNewTick_holds env hep hlt (hfs e' k ep rfl hep hlt)
        have hacc := accept_guarded hE hg h.guarded (k' := Spec.localTick ep.zone k) hep (hquote e' k rfl) (fun he => by
          subst he
          exact hj k ep rfl hep hlt)
        by_cases he : e' = e
        · subst he
          have hnone := hn k rfl ep hep hlt
          rw [heq] at hnone ⊢
          rw [x1] at hep
          injection hep with hep
          subst hep
          refine exec_guarded hE hg henv hstop hu _ ?_ hacc.weaken x2 hnone
          have := (updateOpenTrades_rest ({ w with epics := w.epics.set e' (x.accept (Spec.localTick x.zone k)).1, log := w.log ++ [.accepted e' (Spec.localTick x.zone k)] } : World)
            x.provider (Spec.localTick x.zone k)).2.2.1
          unfold StratP
          rw [this]
          exact h.free
        · rw [heq]
          refine execStrategies_guarded hE hg henv _ _ _ _ _ ⟨hacc.marked, hacc.tight, fun t ht h1 h2 => ?_⟩
          have := hacc.mine t ht h1 h2
          exact ⟨this.cents, this.floor, fun _ => this.stopped he⟩
      · rw [onNewTick_rejected env w e' k ep hep hlt]
        exact h.guarded

/-- C94 (exact arithmetic, quotes in cents): let `on_every_tick` of strategy `s` begin with a loop that closes every open trade of the strategy on the
epic of the callback whose result is below `-L`, whatever it does afterwards; let nobody stop or pause the strategy, and let trades be handled by
epics, strategies and providers only.  Then, from a moment on at which the strategy is registered with the epic and has no trades there, no trade of the
strategy on the epic ever has a result below minus the limit (or the spread, if that is more) less one jump of the market; and the open ones
are above the limit, except for the spread paid at the opening.
Missing: providers shared between epics (`C94_shared_false`), exceptions of other strategies (`C94_raising_false`), frame sets that raise, and the number
format. -/
theorem C94_stop_loss_partial (hE : Exact) {env : Env} {w0 : World} (h0 : w0.Init) {l1 l2 : List Cmd} (hd : Spec.Delegates env (l1 ++ l2))
    (htidy : Spec.Tidy env w0 (l1 ++ l2)) {s e : ℕ} {L σ g : ℚ} (hs : s < w0.strategies.length) (hstop : Spec.StopLoss env s L)
    (hu : Spec.Untouched env s) (hul : Spec.UntouchedBy (l1 ++ l2) s) (hst : Spec.Starts (w0.runCmds env l1) s e σ) (hg : 0 ≤ g)
    (hj : Spec.Jumps env e σ g (w0.runCmds env l1) l2) (hn : Spec.NoRaise env (w0.runCmds env l1) e l2)
    (t : Trade) (ht : t ∈ (w0.runCmds env (l1 ++ l2)).trades) (hts : t.strategy = some s) (hte : t.epic = e) :
    -(max L (t.openQty * σ) + t.openQty * g) ≤ t.result ∧ (Spec.IsOpen t → -max L (t.openQty * σ) ≤ t.result) := by
  have hfree : ∀ (l : List Cmd) (w : World), StratP w s Free → Spec.UntouchedBy l s → StratP (w.runCmds env l) s Free := by
    intro l
    induction l with
    | nil => intro w h _; exact h
    | cons c l ih =>
      intro w h hl
      refine ih _ ?_ (fun x hx => hl x (by simp [hx]))
      by_cases hc' : ∃ e t, c = .tick e t
      · obtain ⟨e0, k, rfl⟩ := hc'
        exact tick_keeps (hu.keeps free_switches) (fun _ _ st hst => hst.isActive _) h
      · push Not at hc'
        exact exec_nontick_keeps env w c hc' (hl c (by simp)) free_switches h
  have hrun : w0.runCmds env (l1 ++ l2) = (w0.runCmds env l1).runCmds env l2 := by unfold World.runCmds; rw [List.foldl_append]
  rw [hrun] at ht
  have hM : MarkedInv (w0.runCmds env l1) := by
    refine tidy_marked h0 ⟨hd.callbacks, fun o ho => hd.ops o (by simp [ho])⟩ ⟨htidy.providers, ?_, fun e k hk => htidy.quotes e k (by simp [hk])⟩
    have := htidy.frames
    revert this
    generalize w0 = w
    clear * -
    induction l1 generalizing w with
    | nil => intro _; trivial
    | cons c l ih => intro h; exact ⟨h.1, ih _ h.2⟩
  have hF := FramesHold.tail l1 htidy.frames
  have key : ∀ (l : List Cmd) (w : World), StopInv s e L σ g w → (∀ o, Cmd.op o ∈ l → o.Indirect ∧ o.Valid) → Spec.UntouchedBy l s →
      (∀ e k, Cmd.tick e k ∈ l → (k.bid = 0 ↔ k.ask = 0)) → Spec.FramesHold env w l → Spec.Jumps env e σ g w l → Spec.NoRaise env w e l →
      StopInv s e L σ g (w.runCmds env l) := by
    intro l
    induction l with
    | nil => intro w h _ _ _ _ _ _; exact h
    | cons c l ih =>
      intro w h h1 h2 h3 h4 h5 h6
      refine ih _ (h.exec hE hg hd.callbacks hstop hu c (fun o ho => h1 o (by rw [ho]; simp)) (h2 c (by simp)) (fun e k hc => h3 e k (by rw [hc]; simp)) h4.1 h5.1
        (fun k hc ep a b => h6 [] k l (by rw [hc]; rfl) ep a b)) (fun o ho => h1 o (List.mem_cons_of_mem _ ho)) (fun x hx => h2 x (by simp [hx]))
        (fun e k hk => h3 e k (List.mem_cons_of_mem _ hk)) h4.2 h5.2 ?_
      intro l1 k l2 hl ep' a b
      exact h6 (c :: l1) k l2 (by rw [hl]; rfl) ep' a b
  obtain ⟨ep, e1, e2, e3, e4, e5⟩ := hst.epic
  have hI := key l2 (w0.runCmds env l1) ⟨⟨hM, fun ep' h' => by rw [e1] at h'; injection h' with h'; subst h'; exact ⟨e3, e4, e5⟩,
      fun t ht h1 h2 => absurd h2 (hst.none t ht h1)⟩, hfree l1 w0 ?_ (fun c hc => hul c (by simp [hc])), ⟨ep, e1, e2⟩⟩
    (fun o ho => hd.ops o (by simp [ho])) (fun c hc => hul c (by simp [hc])) (fun e k hk => htidy.quotes e k (by simp [hk])) hF hj hn
  · have hl := hI.guarded.mine t ht hts hte
    exact ⟨hl.floor, fun ho => hl.stopped trivial ho⟩
  · refine ⟨_, List.getElem?_eq_getElem hs, ?_⟩
    obtain ⟨ref, hr⟩ := h0.strategies _ (List.getElem_mem hs)
    rw [hr]; exact ⟨rfl, rfl⟩

/-! ## The hypotheses -/

/-- C94 with conditions on providers (`own`) and on exceptions (`calm`). -/
def Spec.C94 (own calm : Prop) : Prop :=
  ∀ (env : Env) (w0 : World), w0.Init → ∀ l1 l2 : List Cmd, Spec.Delegates env (l1 ++ l2) → (own → (w0.epics.map Epic.provider).Nodup) →
    Spec.FramesHold env w0 (l1 ++ l2) → (∀ e k, Cmd.tick e k ∈ l1 ++ l2 → (k.bid = 0 ↔ k.ask = 0)) →
    ∀ (s e : ℕ) (L σ g : ℚ), s < w0.strategies.length → Spec.StopLoss env s L → Spec.Untouched env s → Spec.UntouchedBy (l1 ++ l2) s →
    Spec.Starts (w0.runCmds env l1) s e σ → 0 ≤ g → Spec.Jumps env e σ g (w0.runCmds env l1) l2 →
    (calm → Spec.NoRaise env (w0.runCmds env l1) e l2) → ∀ t ∈ (w0.runCmds env (l1 ++ l2)).trades, t.strategy = some s → t.epic = e →
    -(max L (t.openQty * σ) + t.openQty * g) ≤ t.result ∧ (Spec.IsOpen t → -max L (t.openQty * σ) ≤ t.result)

theorem C94_stop_loss_spec (hE : Exact) : Spec.C94 True True := fun _ _ h0 _ _ h1 h2 h3 h4 _ _ _ _ _ h5 h6 h7 h8 h9 h10 h11 h12 t ht hs he =>
  C94_stop_loss_partial hE h0 h1 ⟨h2 trivial, h3, h4⟩ h5 h6 h7 h8 h9 h10 h11 (h12 trivial) t ht hs he

end

/-! ## Concrete cases -/

section
variable [Arith]

/-- Strategy 0 closes trades that lose more than 2, then buys one unit, on every tick; strategy 1 does something on every tick. -/
def Demo.stopper (other : World → Prog) : Env := fun s cb e w =>
  if s = 0 ∧ cb = .everyTick then
    Spec.stopLoop 2 e (fun _ => .act (.openTrade e (some 0) (some .buy) 1) (fun _ _ => .done))
      ((w.strategies[0]?).elim [] (fun st => st.trades.reverse)) w
  else if s = 1 ∧ cb = .everyTick then other w else .done

theorem stopLoop_all {P : Op → Prop} {L : ℚ} {e : ℕ} {rest : World → Prog} (h1 : ∀ w, (rest w).All P) (h2 : ∀ i, P (.closeTrade e i none)) (l : List ℕ) :
    ∀ w, (Spec.stopLoop L e rest l w).All P := by
  induction l with
  | nil => intro w; exact h1 w
  | cons i l ih =>
    intro w
    unfold Spec.stopLoop
    rcases w.trades[i]? with _ | t
    · exact ih w
    · dsimp only
      split_ifs
      · refine ⟨h2 i, fun u x => ?_⟩
        rcases x with _ | err
        · exact ih u
        · trivial
      · exact ih w

theorem Demo.stopper_all {P : Op → Prop} {other : World → Prog} (h : ∀ w, (other w).All P) (h1 : ∀ e, P (.openTrade e (some 0) (some .buy) 1))
    (h2 : ∀ e i, P (.closeTrade e i none)) (s : ℕ) (cb : Cb) (e : ℕ) (w : World) : (Demo.stopper other s cb e w).All P := by
  unfold Demo.stopper
  split_ifs
  · refine stopLoop_all (fun u => ?_) (h2 e) _ w
    exact ⟨h1 e, fun _ _ => trivial⟩
  · exact h w
  · trivial

theorem Demo.stopper_stops (other : World → Prog) : Spec.StopLoss (Demo.stopper other) 0 2 := by
  intro e w st hst
  refine ⟨fun _ => .act (.openTrade e (some 0) (some .buy) 1) (fun _ _ => .done), ?_⟩
  unfold Demo.stopper
  rw [if_pos ⟨rfl, rfl⟩, hst]
  rfl

/-- Nothing. -/
def Demo.idle (_ : World) : Prog := .done

theorem Demo.idle_all (P : Op → Prop) (w : World) : (Demo.idle w).All P := trivial

/-- An exception when the bid has fallen below 99. -/
def Demo.nervous (w : World) : Prog := match w.epics[0]? with
  | some ep => if ep.lastTick.bid < 99 then .raise .attr else .done
  | none => .done

theorem Demo.nervous_all {P : Op → Prop} (w : World) : (Demo.nervous w).All P := by
  unfold Demo.nervous
  split
  · split_ifs <;> trivial
  · trivial

theorem Demo.stopper_delegates {other : World → Prog} (h : ∀ (P : Op → Prop) w, (other w).All P) (l : List Cmd) (hl : ∀ o, Cmd.op o ∉ l) :
    Spec.Delegates (Demo.stopper other) l :=
  ⟨Demo.stopper_all (h _) (fun _ => ⟨trivial, by show (0 : ℤ) ≤ 1; decide⟩) (fun _ _ => ⟨trivial, fun n hn => by cases hn⟩),
    fun o ho => absurd ho (hl o)⟩

theorem Demo.stopper_untouched {other : World → Prog} (h : ∀ (P : Op → Prop) w, (other w).All P) : Spec.Untouched (Demo.stopper other) 0 :=
  Demo.stopper_all (h _) (fun _ => ⟨by simp, by simp⟩) (fun _ _ => ⟨by simp, by simp⟩)

/-- Jumps of the market, computed. -/
def Demo.jumps (env : Env) (e : ℕ) (σ g : ℚ) : World → List Cmd → Bool
  | _, [] => true
  | w, c :: l => (match c with
    | .tick e' k => decide (e' ≠ e) || (match w.epics[e]? with
      | some ep => decide (cent k.bid = k.bid ∧ cent k.ask = k.ask ∧ k.ask - k.bid ≤ σ ∧ |k.bid - ep.lastTick.bid| ≤ g ∧ |k.ask - ep.lastTick.ask| ≤ g)
      | none => true)
    | _ => true) && Demo.jumps env e σ g (w.exec env c).1 l

theorem Demo.jumps_spec (env : Env) (e : ℕ) (σ g : ℚ) (l : List Cmd) : ∀ w, Demo.jumps env e σ g w l = true → Spec.Jumps env e σ g w l := by
  induction l with
  | nil => intro _ _; trivial
  | cons c l ih =>
    intro w h
    unfold Demo.jumps at h
    rw [Bool.and_eq_true] at h
    refine ⟨?_, ih _ h.2⟩
    rintro k ep rfl hep -
    have h1 := h.1
    simp only [hep, ne_eq, not_true_eq_false, decide_false, Bool.false_or, decide_eq_true_eq] at h1
    obtain ⟨a, b, c⟩ := h1
    exact ⟨by rw [← a]; exact isCent_cent _, by rw [← b]; exact isCent_cent _, c⟩

end

/-- Each epic with its own provider: first tick, registrations. -/
def Demo.stopStart : List Cmd := [.tick 0 (Demo.tk 480 100 101), .addStrategy 0 1, .addStrategy 0 0]

/-- A falling market. -/
def Demo.stopFall : List Cmd := [.tick 0 (Demo.tk 481 100 101), .tick 0 (Demo.tk 482 98 99), .tick 0 (Demo.tk 483 97 98), .tick 0 (Demo.tk 484 95 96)]

/-- Three trades are stopped, one of them with the largest loss `C94_stop_loss_partial` allows (2 and a jump of 2). -/
example : letI := Arith.exact
    (Demo.apart.runCmds (Demo.stopper Demo.idle) (Demo.stopStart ++ Demo.stopFall)).trades.map (fun t => (t.closed, t.result))
      = [(true, -3), (true, -4), (true, -3), (false, -1)] := by decide +kernel

theorem Demo.stop_quotes {l : List Cmd} (h : l.all (fun c => match c with
    | .tick _ k => decide (k.bid = 0 ↔ k.ask = 0)
    | _ => true) = true) : ∀ e k, Cmd.tick e k ∈ l → (k.bid = 0 ↔ k.ask = 0) := by
  intro e k hk
  exact of_decide_eq_true (List.all_eq_true.mp h _ hk)

theorem Demo.no_ops {l : List Cmd} (h : l.all (fun c => match c with
    | .op _ => false
    | _ => true) = true) : ∀ o, Cmd.op o ∉ l := by
  intro o ho
  exact absurd (List.all_eq_true.mp h _ ho) (by simp)

theorem Demo.no_ops_untouched {l : List Cmd} (h : ∀ o, Cmd.op o ∉ l) (s : ℕ) : Spec.UntouchedBy l s :=
  fun _ hc => ⟨fun _ he => h _ (he ▸ hc), fun _ he => h _ (he ▸ hc)⟩

theorem Demo.starts_of [Arith] {w : World} (h : (match w.epics[0]? with
    | some ep => decide (0 ∈ ep.strategies.map Prod.snd ∧ cent ep.lastTick.bid = ep.lastTick.bid ∧ cent ep.lastTick.ask = ep.lastTick.ask ∧
        ep.lastTick.ask - ep.lastTick.bid ≤ 1)
    | none => false) = true) (h2 : w.trades = []) : Spec.Starts w 0 0 1 := by
  refine ⟨?_, fun t ht => by rw [h2] at ht; cases ht⟩
  split at h
  · rename_i ep hep
    obtain ⟨a, b, c, d⟩ := of_decide_eq_true h
    exact ⟨ep, hep, a, by rw [← b]; exact isCent_cent _, by rw [← c]; exact isCent_cent _, d⟩
  · cases h

/-- The hypotheses of `C94_stop_loss_partial` hold in that run. -/
example : letI := Arith.exact
    ∀ t ∈ (Demo.apart.runCmds (Demo.stopper Demo.idle) (Demo.stopStart ++ Demo.stopFall)).trades, t.strategy = some 0 → t.epic = 0 →
    -(max (2 : ℚ) (t.openQty * (1 : ℚ)) + t.openQty * (2 : ℚ)) ≤ t.result ∧ (Spec.IsOpen t → -max (2 : ℚ) (t.openQty * (1 : ℚ)) ≤ t.result) :=
  letI := Arith.exact
  C94_stop_loss_partial (l1 := Demo.stopStart) (l2 := Demo.stopFall) (L := 2) (σ := 1) (g := 2) exact_exact Demo.apart_init (Demo.stopper_delegates Demo.idle_all _ (Demo.no_ops (by decide)))
    ⟨by decide, Marked.holds_spec _ _ _ (by decide +kernel), Demo.stop_quotes (by decide +kernel)⟩ (by decide) (Demo.stopper_stops _)
    (Demo.stopper_untouched Demo.idle_all) (Demo.no_ops_untouched (Demo.no_ops (by decide)) 0) (Demo.starts_of (by decide +kernel) (by decide +kernel))
    (by decide) (Demo.jumps_spec _ _ _ _ _ _ (by decide +kernel)) (Demo.calm_noRaise _ _ _ (by decide +kernel) 0)

/-- C94 fails for epics that share a provider: a tick of another epic values the trade at a foreign price, and no callback of the strategy
runs. -/
theorem C94_shared_false : ¬ @Spec.C94 Arith.exact False True := by
  letI := Arith.exact
  intro h
  have := h (Demo.stopper Demo.idle) Demo.world Demo.world_init Demo.stopStart [.tick 0 (Demo.tk 481 100 101), .tick 1 (Demo.tk 482 10 11)]
    (Demo.stopper_delegates Demo.idle_all _ (Demo.no_ops (by decide))) (fun x => x.elim) (Marked.holds_spec _ _ _ (by decide +kernel))
    (Demo.stop_quotes (by decide +kernel)) 0 0 2 1 2 (by decide) (Demo.stopper_stops _)
    (Demo.stopper_untouched Demo.idle_all) (Demo.no_ops_untouched (Demo.no_ops (by decide)) 0) (Demo.starts_of (by decide +kernel) (by decide +kernel))
    (by decide) (Demo.jumps_spec _ _ _ _ _ _ (by decide +kernel)) (fun _ => Demo.calm_noRaise _ _ _ (by decide +kernel) 0)
  revert this
  unfold Spec.IsOpen
  decide +kernel

/-- C94 fails when another strategy, registered earlier, raises: the loop is not reached. -/
theorem C94_raising_false : ¬ @Spec.C94 Arith.exact True False := by
  letI := Arith.exact
  intro h
  have := h (Demo.stopper Demo.nervous) Demo.apart Demo.apart_init Demo.stopStart [.tick 0 (Demo.tk 481 100 101), .tick 0 (Demo.tk 482 98 99)]
    (Demo.stopper_delegates (fun _ => Demo.nervous_all) _ (Demo.no_ops (by decide))) (fun _ => by decide) (Marked.holds_spec _ _ _ (by decide +kernel))
    (Demo.stop_quotes (by decide +kernel)) 0 0 2 1 2 (by decide) (Demo.stopper_stops _)
    (Demo.stopper_untouched (fun _ => Demo.nervous_all)) (Demo.no_ops_untouched (Demo.no_ops (by decide)) 0) (Demo.starts_of (by decide +kernel) (by decide +kernel))
    (by decide) (Demo.jumps_spec _ _ _ _ _ _ (by decide +kernel)) (fun x => x.elim)
  revert this
  unfold Spec.IsOpen
  decide +kernel

end Estrade
