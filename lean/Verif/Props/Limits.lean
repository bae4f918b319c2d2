import Verif.Lemmas.Gross
import Verif.Props.Interleave

/-!
# C95: limits on positions that user code checks before it opens are never exceeded
-/

set_option linter.style.haveILetI false
set_option linter.unusedSectionVars false
set_option autoImplicit false

namespace Estrade

/-- Spec: the units of a trade that are not closed. -/
def Spec.units (t : Trade) : ℤ := t.openQty - (t.closes.map TradeClose.qty).sum

/-- Spec: the trades of a selection of epics and strategies. -/
def Spec.chosen (K : ℕ → Option ℕ → Bool) (l : List Trade) : List Trade := l.filter (fun t => K t.epic t.strategy)

/-- Spec: the units held by the selection. -/
def Spec.heldUnits (K : ℕ → Option ℕ → Bool) (l : List Trade) : ℤ := ((Spec.chosen K l).map Spec.units).sum

/-- Spec: its number of open trades. -/
def Spec.openCount (K : ℕ → Option ℕ → Bool) (l : List Trade) : ℕ := (Spec.chosen K l).countP (fun t => Spec.units t ≠ 0)

/-- Spec: bought units less sold units. -/
def Spec.netUnits (K : ℕ → Option ℕ → Bool) (l : List Trade) : ℤ :=
  ((Spec.chosen K l).map (fun t => if t.dir = .buy then Spec.units t else -Spec.units t)).sum

section
variable [Arith]

/-- Spec: an opening for the selection leaves at most `Q` units held, if all goes as asked; no quantity is negative. -/
def Spec.Within (K : ℕ → Option ℕ → Bool) (Q : ℤ) (w : World) (o : Op) : Prop :=
  o.Valid ∧ ∀ e s d q, o = .openTrade e s d q → K e s = true → Spec.heldUnits K w.trades + q ≤ Q

/-- Spec: an opening for the selection comes only when fewer than `N` of its trades are open; no quantity is negative. -/
def Spec.Few (K : ℕ → Option ℕ → Bool) (N : ℕ) (w : World) (o : Op) : Prop :=
  o.Valid ∧ ∀ e s d q, o = .openTrade e s d q → K e s = true → Spec.openCount K w.trades < N

theorem gross_heldUnits (K : ℕ → Option ℕ → Bool) (l : List Trade) : gross id K l = Spec.heldUnits K l := by
  unfold gross Spec.heldUnits Spec.chosen
  induction l with
  | nil => rfl
  | cons t l ih =>
    rw [List.map_cons, List.sum_cons, ih, List.filter_cons]
    split_ifs
    · rfl
    · rw [zero_add]

/-- One for an open trade. -/
def oneIf (n : ℤ) : ℤ := if n ≤ 0 then 0 else 1

theorem oneIf_mono : Monotone oneIf := by
  intro a b h
  unfold oneIf
  split_ifs <;> omega

theorem gross_count (K : ℕ → Option ℕ → Bool) (l : List Trade) (h : ∀ t ∈ l, 0 ≤ t.openedQty) : gross oneIf K l = Spec.openCount K l := by
  unfold gross Spec.openCount Spec.chosen
  induction l with
  | nil => rfl
  | cons t l ih =>
    rw [List.map_cons, List.sum_cons, ih (fun t ht => h t (List.mem_cons_of_mem _ ht)), List.filter_cons]
    have h0 : 0 ≤ Spec.units t := h t List.mem_cons_self
    split_ifs
    · rw [List.countP_cons]
      show oneIf (Spec.units t) + _ = _
      unfold oneIf
      by_cases hu : Spec.units t = 0
      · simp [hu]
      · rw [if_neg (by omega)]
        simp [hu]; ring
    · rw [zero_add]

theorem Orderly.rest {w w' : World} (h : Orderly w) (h1 : w'.trades = w.trades) (h2 : w'.providers = w.providers)
    (h3 : w'.epics.map Epic.provider = w.epics.map Epic.provider) : Orderly w' := by
  refine ⟨?_, ?_, ?_⟩
  · intro ep hep
    have : ep.provider ∈ w'.epics.map Epic.provider := List.mem_map_of_mem hep
    rw [h3] at this
    obtain ⟨x, hx, hx'⟩ := List.mem_map.mp this
    rw [h2, ← hx']; exact h.epics x hx
  · unfold NonNeg; rw [h1]; exact h.nonNeg
  · rw [h1]; exact h.closes

theorem Orderly.init {w : World} (h : w.Init) : Orderly w :=
  ⟨(Sound.init h).epics, (Sound.init h).nonNeg, (Sound.init h).closes⟩

/-- The invariant of runs that obey a rule on a measure. -/
theorem run_limit {m : ℤ → ℤ} (hm : Monotone m) (hm0 : 0 ≤ m 0) {K : ℕ → Option ℕ → Bool} {Q : ℤ} {P : World → Op → Prop}
    (hP : ∀ w o, P w o → Orderly w → o.Valid ∧ (asked m K o = 0 ∨ gross m K w.trades + asked m K o ≤ Q)) {env : Env}
    (henv : ∀ s cb e w, Orderly w → gross m K w.trades ≤ Q → (env s cb e w).Obeys P w)
    (l : List Cmd) (w : World) (hl : Spec.Heeds env P w l) (hw : Orderly w) (hQ : gross m K w.trades ≤ Q) :
    Orderly (w.runCmds env l) ∧ gross m K (w.runCmds env l).trades ≤ Q := by
  refine run_obeys (I := fun w => Orderly w ∧ gross m K w.trades ≤ Q) (P := P) ?_ ?_ ?_ (fun s cb e w h => henv s cb e w h.1 h.2) l w hl ⟨hw, hQ⟩
  · intro w o ho hw
    obtain ⟨h1, h2⟩ := hP w o ho hw.1
    refine ⟨hw.1.wsteps (Steps.lift (step_steps hw.1.epics (fun _ => h1))), ?_⟩
    have := step_gross hm hm0 (K := K) hw.1 o h1
    have := hw.2
    omega
  · intro w w' h1 h2 h3 hw
    exact ⟨hw.1.rest h1 h2 h3, by rw [h1]; exact hw.2⟩
  · intro w p k hw
    obtain ⟨h1, h2⟩ := update_gross hm (K := K) hw.1 p k
    exact ⟨h1, h2.trans hw.2⟩

/-- C95: an operation with non-negative quantities adds to the units held at most what it asks for, and to the number of open trades at most one; only
openings for the selection add anything. -/
theorem C95_operation {env : Env} (henv : env.Valid) {w0 : World} (h0 : w0.Init) {l : List Cmd} (hl : ∀ c ∈ l, c.Valid)
    (K : ℕ → Option ℕ → Bool) (o : Op) (ho : o.Valid) :
    let w := w0.runCmds env l
    Spec.heldUnits K (w.step o).1.trades ≤ Spec.heldUnits K w.trades + (match o with
      | .openTrade e s _ q => if K e s then q else 0
      | _ => 0) ∧
    Spec.openCount K (w.step o).1.trades ≤ Spec.openCount K w.trades + (match o with
      | .openTrade e s _ _ => if K e s then 1 else 0
      | _ => 0) := by
  intro w
  have hw : Orderly w := (Orderly.init h0).wsteps (runCmds_steps (fun _ => henv) l w0 (Init.epicsOk h0) (fun _ => hl))
  have hw' : Orderly (w.step o).1 := hw.wsteps (Steps.lift (step_steps hw.epics (fun _ => ho)))
  have h1 := step_gross (m := id) monotone_id (le_refl _) (K := K) hw o ho
  have h2 := step_gross oneIf_mono (by decide) (K := K) hw o ho
  rw [gross_heldUnits, gross_heldUnits] at h1
  rw [gross_count _ _ hw'.nonNeg, gross_count _ _ hw.nonNeg] at h2
  constructor
  · cases o <;> exact h1
  · cases o with
    | openTrade e s d q =>
      have h3 : asked oneIf K (.openTrade e s d q) = if K e s then oneIf q else 0 := rfl
      rw [h3] at h2
      dsimp only
      have h4 : oneIf q ≤ 1 := by unfold oneIf; split_ifs <;> omega
      split_ifs at h2 ⊢ <;> omega
    | _ =>
      have h3 : ∀ x : ℤ, x + 0 = x := fun x => add_zero x
      change (_ : ℤ) ≤ _ + 0 at h2
      rw [h3] at h2
      dsimp only
      omega

theorem within_limit {K : ℕ → Option ℕ → Bool} {Q : ℤ} (hQ : 0 ≤ Q) {env : Env}
    (henv : ∀ s cb e w, Spec.heldUnits K w.trades ≤ Q → (env s cb e w).Obeys (Spec.Within K Q) w)
    {w0 : World} (h0 : w0.Init) {l : List Cmd} (hl : Spec.Heeds env (Spec.Within K Q) w0 l) :
    Orderly (w0.runCmds env l) ∧ Spec.heldUnits K (w0.runCmds env l).trades ≤ Q := by
  rw [← gross_heldUnits]
  refine run_limit (m := id) monotone_id (le_refl _) (K := K) (Q := Q) (P := Spec.Within K Q) ?_ (fun s cb e w _ h => henv s cb e w (by rw [← gross_heldUnits]; exact h)) l w0 hl (.init h0) (by
    unfold gross; rw [h0.trades]; exact hQ)
  intro w o ho _
  refine ⟨ho.1, ?_⟩
  cases o with
  | openTrade e s d q =>
    have h3 : asked id K (.openTrade e s d q) = if K e s then q else 0 := rfl
    rw [h3, gross_heldUnits]
    by_cases hk : K e s = true
    · rw [if_pos hk]; exact .inr (ho.2 e s d q rfl hk)
    · rw [if_neg hk]; exact .inl rfl
  | _ => exact .inl rfl

/-- C95, units: if user code opens trades of a selection of epics and strategies only where the units held and the new ones are at most `Q`, then at
most `Q` units are held after every command, whatever else happens.  Callbacks may rely on the limit: the rule binds them only where it holds. -/
theorem C95_limit {K : ℕ → Option ℕ → Bool} {Q : ℤ} (hQ : 0 ≤ Q) {env : Env}
    (henv : ∀ s cb e w, Spec.heldUnits K w.trades ≤ Q → (env s cb e w).Obeys (Spec.Within K Q) w)
    {w0 : World} (h0 : w0.Init) {l : List Cmd} (hl : Spec.Heeds env (Spec.Within K Q) w0 l) :
    0 ≤ Spec.heldUnits K (w0.runCmds env l).trades ∧ Spec.heldUnits K (w0.runCmds env l).trades ≤ Q := by
  have := within_limit hQ henv h0 hl
  refine ⟨?_, this.2⟩
  unfold Spec.heldUnits
  refine List.sum_nonneg (fun x hx => ?_)
  obtain ⟨t, ht, rfl⟩ := List.mem_map.mp hx
  exact this.1.nonNeg t (List.mem_of_mem_filter ht)

/-- C95, net position: under the same rule the bought units less the sold ones lie between `-Q` and `Q`. -/
theorem C95_net {K : ℕ → Option ℕ → Bool} {Q : ℤ} (hQ : 0 ≤ Q) {env : Env}
    (henv : ∀ s cb e w, Spec.heldUnits K w.trades ≤ Q → (env s cb e w).Obeys (Spec.Within K Q) w)
    {w0 : World} (h0 : w0.Init) {l : List Cmd} (hl : Spec.Heeds env (Spec.Within K Q) w0 l) :
    |Spec.netUnits K (w0.runCmds env l).trades| ≤ Q := by
  have hw := within_limit hQ henv h0 hl
  refine le_trans ?_ hw.2
  have hn := hw.1.nonNeg
  revert hn
  unfold NonNeg Spec.netUnits Spec.heldUnits Spec.chosen
  generalize (w0.runCmds env l).trades = l
  intro hn
  induction l with
  | nil => simp
  | cons t l ih =>
    have ih := ih (fun t ht => hn t (List.mem_cons_of_mem _ ht))
    have ht : 0 ≤ Spec.units t := hn t List.mem_cons_self
    rw [List.filter_cons]
    split_ifs
    · rw [List.map_cons, List.sum_cons, List.map_cons, List.sum_cons]
      refine le_trans (abs_add_le _ _) (add_le_add ?_ ih)
      split_ifs
      · rw [abs_of_nonneg ht]
      · rw [abs_neg, abs_of_nonneg ht]
    · exact ih

/-- C95, trades: if user code opens trades of a selection only while fewer than `N` of them are open, then never more than `N` are open. -/
theorem C95_count {K : ℕ → Option ℕ → Bool} {N : ℕ} {env : Env}
    (henv : ∀ s cb e w, Spec.openCount K w.trades ≤ N → (env s cb e w).Obeys (Spec.Few K N) w)
    {w0 : World} (h0 : w0.Init) {l : List Cmd} (hl : Spec.Heeds env (Spec.Few K N) w0 l) : Spec.openCount K (w0.runCmds env l).trades ≤ N := by
  have := run_limit oneIf_mono (by decide) (K := K) (Q := N) (P := Spec.Few K N) ?_ (fun s cb e w h1 h2 => henv s cb e w (by rw [gross_count _ _ h1.nonNeg] at h2; exact_mod_cast h2)) l w0 hl (.init h0) (by
    unfold gross; rw [h0.trades]; simp)
  · rw [gross_count _ _ this.1.nonNeg] at this
    exact_mod_cast this.2
  · intro w o ho hw
    refine ⟨ho.1, ?_⟩
    cases o with
    | openTrade e s d q =>
      have h3 : asked oneIf K (.openTrade e s d q) = if K e s then oneIf q else 0 := rfl
      rw [h3, gross_count _ _ hw.nonNeg]
      by_cases hk : K e s = true
      · rw [if_pos hk]
        have h1 := ho.2 e s d q rfl hk
        have h4 : oneIf q ≤ 1 := by unfold oneIf; split_ifs <;> omega
        right; omega
      · rw [if_neg hk]; exact .inl rfl
    | _ => exact .inl rfl

/-! ## Concrete cases -/

/-- On every tick strategy 0 buys two units if it then holds at most three, and one more under the same condition; otherwise it closes one unit of
each trade. -/
def Demo.limited : Env := fun s cb e w =>
  if s = 0 ∧ cb = .everyTick then
    if Spec.heldUnits (fun _ s => s == some 0) w.trades + 2 ≤ 3 then .act (.openTrade e (some 0) (some .buy) 2) (fun w _ =>
      if Spec.heldUnits (fun _ s => s == some 0) w.trades + 1 ≤ 3 then .act (.openTrade e (some 0) (some .buy) 1) (fun _ _ => .done) else .done)
    else .act (.closeOpened 0 (some 1)) (fun _ _ => .done)
  else .done

theorem Demo.limited_obeys (s : ℕ) (cb : Cb) (e : ℕ) (w : World) :
    (Demo.limited s cb e w).Obeys (Spec.Within (fun _ s => s == some 0) 3) w := by
  unfold Demo.limited
  split_ifs with h1 h2
  · refine ⟨⟨by show (0 : ℤ) ≤ 2; decide, fun e' s' d q h _ => ?_⟩, ?_⟩
    · injection h with _ _ _ h; subst h; exact h2
    · dsimp only
      split_ifs with h3
      · refine ⟨⟨by show (0 : ℤ) ≤ 1; decide, fun e' s' d q h _ => ?_⟩, trivial⟩
        injection h with _ _ _ h; subst h; exact h3
      · trivial
  · refine ⟨⟨?_, fun e' s' d q h _ => by cases h⟩, trivial⟩
    intro n hn; injection hn with hn; omega
  · trivial

/-- The ticks. -/
def Demo.limitCmds : List Cmd := [.tick 0 (Demo.tk 480 100 101), .addStrategy 0 0, .tick 0 (Demo.tk 481 100 101), .tick 0 (Demo.tk 482 98 99),
  .op (.openTrade 0 (some 1) (some .buy) 9), .tick 0 (Demo.tk 483 97 98)]

theorem Demo.limit_heeds : Spec.Heeds Demo.limited (Spec.Within (fun _ s => s == some 0) 3) Demo.apart Demo.limitCmds := by
  refine ⟨(fun o h => by cases h), (fun o h => by cases h), (fun o h => by cases h), (fun o h => by cases h), ?_, (fun o h => by cases h), trivial⟩
  rintro o ⟨⟩
  refine ⟨by show (0 : ℤ) ≤ 9; decide, fun e' s' d q h hk => ?_⟩
  injection h with _ h; subst h
  simp at hk

/-- Strategy 0 buys three units on every tick when it has no open trade. -/
def Demo.single : Env := fun s cb e w =>
  if s = 0 ∧ cb = .everyTick ∧ Spec.openCount (fun _ s => s == some 0) w.trades < 1 then .act (.openTrade e (some 0) (some .buy) 3) (fun _ _ => .done) else .done

theorem Demo.single_obeys (s : ℕ) (cb : Cb) (e : ℕ) (w : World) : (Demo.single s cb e w).Obeys (Spec.Few (fun _ s => s == some 0) 1) w := by
  unfold Demo.single
  split_ifs with h1
  · exact ⟨⟨by show (0 : ℤ) ≤ 3; decide, fun e' s' d q h _ => h1.2.2⟩, trivial⟩
  · trivial

/-- The rule of `C95_limit` without the condition that quantities are not negative. -/
def Spec.Loose (K : ℕ → Option ℕ → Bool) (Q : ℤ) (w : World) (o : Op) : Prop :=
  ∀ e s d q, o = .openTrade e s d q → K e s = true → Spec.heldUnits K w.trades + q ≤ Q

/-- C95 without that condition. -/
def Spec.C95_loose : Prop :=
  ∀ (K : ℕ → Option ℕ → Bool) (Q : ℤ), 0 ≤ Q → ∀ env : Env, (∀ s cb e w, (env s cb e w).Obeys (Spec.Loose K Q) w) → ∀ w0 : World, w0.Init →
    ∀ l : List Cmd, Spec.Heeds env (Spec.Loose K Q) w0 l → Spec.heldUnits K (w0.runCmds env l).trades ≤ Q

end

/-- Without that condition the limit can be passed: closing a negative quantity adds units. -/
theorem C95_negative : ¬ @Spec.C95_loose Arith.exact := by
  letI := Arith.exact
  intro h
  have := h (fun _ _ => true) 1 (by decide) (fun _ _ _ _ => .done) (fun _ _ _ _ => trivial) Demo.apart Demo.apart_init
    [.tick 0 (Demo.tk 480 100 101), .op (.openTrade 0 none (some .buy) 1), .op (.closeTrade 0 0 (some (-5)))] ⟨(fun o h => by cases h), ?_, ?_, trivial⟩
  · revert this; decide +kernel
  · rintro o ⟨⟩ e s d q h _
    injection h with _ _ _ h; subst h
    decide +kernel
  · rintro o ⟨⟩ e s d q h _
    cases h

/-- `C95_limit` in a run: three units are held, nine more by another strategy. -/
example : letI := Arith.exact
    Spec.heldUnits (fun _ s => s == some 0) (Demo.apart.runCmds Demo.limited (Demo.limitCmds.take 3)).trades = 3 ∧
    (Demo.apart.runCmds Demo.limited Demo.limitCmds).trades.map (fun t => (t.strategy, Spec.units t)) = [(some 0, 1), (some 0, 0), (some 1, 9), (some 0, 2)] := by
  decide +kernel

example : letI := Arith.exact
    Spec.heldUnits (fun _ s => s == some 0) (Demo.apart.runCmds Demo.limited Demo.limitCmds).trades ≤ 3 :=
  letI := Arith.exact
  (C95_limit (by decide) (fun s cb e w _ => Demo.limited_obeys s cb e w) Demo.apart_init Demo.limit_heeds).2

/-- `C95_count` in a run: one open trade at a time, whoever closes them. -/
example : letI := Arith.exact
    let l : List Cmd := [.tick 0 (Demo.tk 480 100 101), .addStrategy 0 0, .tick 0 (Demo.tk 481 100 101), .tick 0 (Demo.tk 482 98 99),
      .op (.closeTrade 0 0 none), .tick 0 (Demo.tk 483 97 98)]
    (Demo.apart.runCmds Demo.single l).trades.map Spec.units = [0, 3] ∧ Spec.openCount (fun _ s => s == some 0) (Demo.apart.runCmds Demo.single l).trades ≤ 1 := by
  letI := Arith.exact
  refine ⟨by decide +kernel, C95_count (fun s cb e w _ => Demo.single_obeys s cb e w) Demo.apart_init ⟨(fun o h => by cases h), (fun o h => by cases h), (fun o h => by cases h), (fun o h => by cases h), ?_, (fun o h => by cases h), trivial⟩⟩
  rintro o ⟨⟩
  exact ⟨(fun n hn => by cases hn), (fun e s d q h => by cases h)⟩

end Estrade
