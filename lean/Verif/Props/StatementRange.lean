import Verif.Props.Statement
import Verif.Props.Ranges
import Verif.Props.FreeLunch

/-!
# C109 and C110 in floats: the result of a strategy follows from what the providers were asked to do; no free lunch
-/

set_option autoImplicit false
set_option linter.style.haveILetI false
set_option linter.unusedSectionVars false

namespace Estrade

/-- Spec: the trade as a broker books it, with prices in whole cents. -/
def Spec.booked (t : Trade) : Trade :=
  { t with openValue := cent t.openValue, curClose := cent t.curClose, closes := t.closes.map (fun c => { c with closeValue := cent c.closeValue }) }

/-- Spec: the trades as brokers book them. -/
def Spec.bookedAll (w : World) : World := { w with trades := w.trades.map Spec.booked }

section
variable [Arith]

/-- Spec: a price that is the float of a whole number of cents. -/
def Spec.FloatCents (v : ℚ) : Prop := ∃ x, IsCent x ∧ |x| ≤ 2 ^ 40 ∧ v = fl x

/-- Spec: all prices of a trade are floats of whole numbers of cents. -/
def Spec.InFloatCents (t : Trade) : Prop :=
  Spec.FloatCents t.openValue ∧ Spec.FloatCents t.curClose ∧ ∀ c ∈ t.closes, Spec.FloatCents c.closeValue

/-! ## One trade -/

theorem cent_float (hA : Accurate) {x : ℚ} (hx : IsCent x) (h : |x| ≤ 2 ^ 40) : cent (fl x) = x := by
  have hS : (1 : ℚ) ≤ 2 ^ 40 := by norm_num
  refine cent_of_near hx (lt_of_le_of_lt (Apx.fl hA hS h).near ?_)
  norm_num

theorem gain_booked (hA : Accurate) (d : Dir) {o v : ℚ} (ho : Spec.FloatCents o) (hv : Spec.FloatCents v) :
    Spec.gain d o v = Spec.move d (cent o) (cent v) := by
  obtain ⟨x, h1, h2, rfl⟩ := ho
  obtain ⟨y, h3, h4, rfl⟩ := hv
  rw [cent_float hA h1 h2, cent_float hA h3 h4]
  exact gain_cents hA d h1 h3 le_rfl h2 h4

theorem booked_worth (hA : Accurate) {t : Trade} (h : Spec.InFloatCents t) :
    Spec.banked t + Spec.pending t = dealt (Spec.booked t) + Spec.stock (Spec.booked t) := by
  rw [dealt_stock]
  unfold Spec.banked Spec.pending
  have hq : (Spec.booked t).openedQty = t.openQty - (t.closes.map TradeClose.qty).sum := by
    unfold Trade.openedQty Trade.closedQty Spec.booked
    rw [List.map_map]
    rfl
  rw [hq, gain_booked hA _ h.1 h.2.1]
  congr 1
  · unfold Spec.booked
    rw [List.map_map]
    refine congrArg List.sum (List.map_congr_left fun c hc => ?_)
    rw [gain_booked hA _ h.1 (h.2.2 c hc)]
    exact mul_comm _ _
  · exact mul_comm _ _

/-! ## All trades -/

theorem requestsOf_booked (w : World) (i : ℕ) : requestsOf (Spec.bookedAll w) i = requestsOf w i := by
  have : (closesOf (Spec.bookedAll w) i).length = (closesOf w i).length := by
    unfold closesOf Spec.bookedAll
    simp only [List.getElem?_map]
    cases w.trades[i]? with
    | none => rfl
    | some t => exact List.length_map _
  unfold requestsOf
  rw [this]

theorem over_booked (w : World) (f : Trade → ℚ) (ids : List ℕ) :
    Spec.over (Spec.bookedAll w) f ids = Spec.over w (fun t => f (Spec.booked t)) ids := by
  unfold Spec.over Spec.bookedAll
  have : ids.filterMap (fun i => (w.trades.map Spec.booked)[i]?) = (ids.filterMap (fun i => w.trades[i]?)).map Spec.booked := by
    rw [List.map_filterMap]
    refine List.filterMap_congr fun i _ => ?_
    rw [List.getElem?_map]
  simp only
  rw [this, List.map_map]
  rfl

/-- **C109** in every float format as accurate as binary64, for programs that close through the API objects, prices that are floats of whole cents and
amounts within range: the result of a strategy is the float of the money brought in by what the providers were asked to do with its trades,
at the prices in cents, plus what the units still held would bring in. -/
theorem C109_account_in_range (hA : Accurate) {env : Env} {w0 : World} (h0 : w0.Init) {l : List Cmd} (hd : Spec.NoDirectClose env l) {s : ℕ}
    {st : Strategy} (hst : (w0.runCmds env l).strategies[s]? = some st)
    (hc : ∀ i ∈ st.trades, ∀ t, (w0.runCmds env l).trades[i]? = some t → Spec.InFloatCents t)
    (hr : Spec.WithinRange (st.trades.filterMap (fun i => (w0.runCmds env l).trades[i]?))) :
    strategyResult (st.trades.filterMap (fun i => (w0.runCmds env l).trades[i]?)) .none =
      fl (Spec.balance (Spec.bookedAll (w0.runCmds env l)) st.trades) := by
  have hw : Reachable env (w0.runCmds env l) := ⟨w0, h0, l, rfl⟩
  obtain ⟨hn, hl⟩ := strat_listed hw hst
  rw [C56_accounting_in_range_partial hA _ hr]
  congr 1
  unfold Spec.balance
  have hs : Spec.statement (Spec.bookedAll (w0.runCmds env l)) = Spec.statement (w0.runCmds env l) := rfl
  have hq : st.trades.flatMap (requestsOf (w0.runCmds env l)) = st.trades.flatMap (requestsOf (Spec.bookedAll (w0.runCmds env l))) :=
    List.flatMap_congr fun i _ => (requestsOf_booked _ i).symm
  rw [hs, ((statement_perm h0 l hd hn hl).map _).sum_eq, hq, flatMap_cash (fun i hi => ?_), ← over_add, over_booked, ← List.sum_map_add]
  · refine over_congr (f := fun t => Spec.banked t + Spec.pending t) fun i hi t ht => booked_worth hA (hc i hi t ht)
  · obtain ⟨t, ht⟩ := hw.regInv.trade_of_listed (hl i hi)
    exact ⟨Spec.booked t, by unfold Spec.bookedAll; rw [List.getElem?_map, ht]; rfl⟩

/-- C109 in range, a strategy without open units: its result is the float of the money the requests brought in. -/
theorem C109_flat_in_range (hA : Accurate) {env : Env} {w0 : World} (h0 : w0.Init) {l : List Cmd} (hd : Spec.NoDirectClose env l) {s : ℕ}
    {st : Strategy} (hst : (w0.runCmds env l).strategies[s]? = some st)
    (hc : ∀ i ∈ st.trades, ∀ t, (w0.runCmds env l).trades[i]? = some t → Spec.InFloatCents t ∧ (t.closes.map TradeClose.qty).sum = t.openQty)
    (hr : Spec.WithinRange (st.trades.filterMap (fun i => (w0.runCmds env l).trades[i]?))) :
    strategyResult (st.trades.filterMap (fun i => (w0.runCmds env l).trades[i]?)) .none =
      fl (((Spec.statement (w0.runCmds env l)).filter (Spec.concerns st.trades)).map (Spec.cash (Spec.bookedAll (w0.runCmds env l)))).sum := by
  rw [C109_account_in_range hA h0 hd hst (fun i hi t ht => (hc i hi t ht).1) hr]
  congr 1
  unfold Spec.balance
  rw [over_booked, over_congr (g := fun _ => 0) (fun i hi t ht => ?_)]
  · unfold Spec.over
    simp
    rfl
  · unfold Spec.stock Spec.booked Spec.sold
    have := (hc i hi t ht).2
    simp only [List.map_map]
    have h2 : (t.closes.map (TradeClose.qty ∘ fun c => { c with closeValue := cent c.closeValue })).sum = t.openQty := this
    rw [h2]
    cases Spec.contrary t.dir <;> simp

/-! ## No free lunch -/

theorem worth_between {t : Trade} {lo hi : ℚ} (q1 : 0 ≤ t.openedQty) (q3 : ∀ c ∈ t.closes, 0 ≤ c.qty)
    (hm : ∀ v, (v = t.curClose ∨ ∃ c ∈ t.closes, v = c.closeValue) → lo ≤ Spec.move t.dir t.openValue v ∧ Spec.move t.dir t.openValue v ≤ hi) :
    cent (fl lo) * t.openQty ≤ Spec.banked t + Spec.pending t ∧ Spec.banked t + Spec.pending t ≤ cent (fl hi) * t.openQty := by
  have hg : ∀ v, (v = t.curClose ∨ ∃ c ∈ t.closes, v = c.closeValue) →
      cent (fl lo) ≤ Spec.gain t.dir t.openValue v ∧ Spec.gain t.dir t.openValue v ≤ cent (fl hi) := fun v hv =>
    ⟨cent_mono (fl_mono (hm v hv).1), cent_mono (fl_mono (hm v hv).2)⟩
  have hsum : ∀ cs : List TradeClose, (∀ c ∈ cs, c ∈ t.closes) →
      cent (fl lo) * (cs.map TradeClose.qty).sum ≤ (cs.map (fun c => Spec.gain t.dir t.openValue c.closeValue * c.qty)).sum ∧
      (cs.map (fun c => Spec.gain t.dir t.openValue c.closeValue * c.qty)).sum ≤ cent (fl hi) * (cs.map TradeClose.qty).sum := by
    intro cs
    induction cs with
    | nil => intro _; simp
    | cons c cs ih =>
      intro hc
      obtain ⟨i1, i2⟩ := ih (fun x hx => hc x (List.mem_cons_of_mem _ hx))
      obtain ⟨m1, m2⟩ := hg c.closeValue (.inr ⟨c, hc c (by simp), rfl⟩)
      have hq : (0 : ℚ) ≤ c.qty := by exact_mod_cast q3 c (hc c (by simp))
      have m1' := mul_le_mul_of_nonneg_right m1 hq
      have m2' := mul_le_mul_of_nonneg_right m2 hq
      simp only [List.map_cons, List.sum_cons]
      push_cast
      constructor <;> linarith
  obtain ⟨s1, s2⟩ := hsum t.closes (fun _ h => h)
  obtain ⟨m1, m2⟩ := hg t.curClose (.inl rfl)
  unfold Spec.banked Spec.pending
  have hq : (0 : ℚ) ≤ ((t.openQty - (t.closes.map TradeClose.qty).sum : ℤ) : ℚ) := by exact_mod_cast q1
  have m1' := mul_le_mul_of_nonneg_right m1 hq
  have m2' := mul_le_mul_of_nonneg_right m2 hq
  push_cast at *
  constructor <;> linarith

/-- **C110** in every float format as accurate as binary64, amounts within range: the result of a strategy lies between the worst and the best gain of a
unit, in floats and to the cent, times the units it opened. -/
theorem C110_between_in_range (hA : Accurate) {env : Env} {w0 : World} (h0 : w0.Init) {l : List Cmd} (hd : Spec.Delegates env l) {lo hi : ℚ}
    (hlo : lo ≤ 0) (hhi : 0 ≤ hi) (hg : Spec.UnitGains Spec.sameProvider (w0.runCmds env l) lo hi) {st : Strategy}
    (hlate : ∀ i ∈ st.trades, ∀ t, (w0.runCmds env l).trades[i]? = some t → t.dt ≠ Tick.epoch.dt)
    (hr : Spec.WithinRange (st.trades.filterMap (fun i => (w0.runCmds env l).trades[i]?))) :
    let own := st.trades.filterMap (fun i => (w0.runCmds env l).trades[i]?)
    fl (cent (fl lo) * (own.map Trade.openQty).sum) ≤ strategyResult own .none ∧
    strategyResult own .none ≤ fl (cent (fl hi) * (own.map Trade.openQty).sum) := by
  intro own
  have hv : Spec.ValidRun env (w0.runCmds env l) := ⟨w0, h0, hd.env_valid, l, hd.cmd_valid, rfl⟩
  rw [C56_accounting_in_range_partial hA own hr, ← List.sum_map_add]
  have hone : ∀ t ∈ own, cent (fl lo) * t.openQty ≤ Spec.banked t + Spec.pending t ∧ Spec.banked t + Spec.pending t ≤ cent (fl hi) * t.openQty := by
    intro t ht
    obtain ⟨i, hi', hti⟩ := List.mem_filterMap.mp ht
    have htm := List.mem_of_getElem? hti
    obtain ⟨q1, -, q3⟩ := hv.quantities t htm
    exact worth_between q1 q3 (moves_between h0 hd hlo hhi hg htm (hlate i hi' t hti))
  have hsum : ∀ L : List Trade, (∀ t ∈ L, t ∈ own) →
      cent (fl lo) * ((L.map Trade.openQty).sum : ℤ) ≤ (L.map (fun t => Spec.banked t + Spec.pending t)).sum ∧
      (L.map (fun t => Spec.banked t + Spec.pending t)).sum ≤ cent (fl hi) * ((L.map Trade.openQty).sum : ℤ) := by
    intro L
    induction L with
    | nil => intro _; simp
    | cons t L ih =>
      intro hL
      obtain ⟨i1, i2⟩ := ih (fun x hx => hL x (List.mem_cons_of_mem _ hx))
      obtain ⟨m1, m2⟩ := hone t (hL t (by simp))
      simp only [List.map_cons, List.sum_cons]
      push_cast at *
      constructor <;> linarith
  obtain ⟨a, b⟩ := hsum own (fun _ h => h)
  exact ⟨fl_mono a, fl_mono b⟩

end

/-! ## Concrete cases -/

/-- Quotes that are not floats: 0.1 and 0.3, then 0.7 and 0.9. Three units are bought, one is sold. -/
def Demo.dimes [Arith] : List Cmd := [.tick 1 (Demo.tk 480 (fl (1 / 10)) (fl (3 / 10))), .op (.openTrade 1 (some 0) (some .buy) 3),
  .tick 1 (Demo.tk 481 (fl (7 / 10)) (fl (9 / 10))), .op (.closeTrade 1 0 (some 1))]

/-- The hypotheses of C109_account_in_range, in binary64. -/
example : letI := Arith.binary64
    ∃ st, (Demo.world.runCmds Demo.quiet Demo.dimes).strategies[0]? = some st ∧
      strategyResult (st.trades.filterMap (fun i => (Demo.world.runCmds Demo.quiet Demo.dimes).trades[i]?)) .none =
        fl (Spec.balance (Spec.bookedAll (Demo.world.runCmds Demo.quiet Demo.dimes)) st.trades) := by
  letI := Arith.binary64
  refine ⟨_, List.getElem?_eq_getElem (by decide +kernel), ?_⟩
  refine C109_account_in_range (env := Demo.quiet) (l := Demo.dimes) accurate_binary64 Demo.world_init ⟨fun _ _ _ _ => trivial, by simp [Demo.dimes]⟩
    (List.getElem?_eq_getElem (by decide +kernel)) ?_ (by unfold Spec.WithinRange; decide +kernel)
  have h : ∀ t ∈ (Demo.world.runCmds Demo.quiet Demo.dimes).trades,
      t.openValue = fl (3 / 10) ∧ t.curClose = fl (7 / 10) ∧ ∀ c ∈ t.closes, c.closeValue = fl (7 / 10) := by decide +kernel
  have h3 : Spec.FloatCents (fl (3 / 10)) := ⟨3 / 10, ⟨30, by norm_num⟩, by norm_num [abs_of_pos], rfl⟩
  have h7 : Spec.FloatCents (fl (7 / 10)) := ⟨7 / 10, ⟨70, by norm_num⟩, by norm_num [abs_of_pos], rfl⟩
  intro i _ t ht
  obtain ⟨a, b, c⟩ := h t (List.mem_of_getElem? ht)
  exact ⟨a ▸ h3, b ▸ h7, fun x hx => c x hx ▸ h7⟩

/-- In that case the floats themselves do not add up to the result, the prices in cents do. -/
example : letI := Arith.binary64
    let w := Demo.world.runCmds Demo.quiet Demo.dimes
    (Spec.balance (Spec.bookedAll w) [0] = 12 / 10) ∧ (Spec.balance w [0] ≠ 12 / 10) ∧ (strategyResult w.trades .none = fl (12 / 10)) := by
  refine ⟨?_, ?_, ?_⟩ <;> decide +kernel

/-- The hypotheses of C110_between_in_range, in binary64: units gain between -0.9 and 0.5, three units between -2.7 and 1.5. -/
example : letI := Arith.binary64
    ∃ st, (Demo.world.runCmds Demo.quiet Demo.dimes).strategies[0]? = some st ∧
      strategyResult (st.trades.filterMap (fun i => (Demo.world.runCmds Demo.quiet Demo.dimes).trades[i]?)) .none ≤
        fl (cent (fl (1 / 2)) * ((st.trades.filterMap (fun i => (Demo.world.runCmds Demo.quiet Demo.dimes).trades[i]?)).map Trade.openQty).sum) := by
  letI := Arith.binary64
  refine ⟨_, List.getElem?_eq_getElem (by decide +kernel), ?_⟩
  refine (C110_between_in_range (env := Demo.quiet) (l := Demo.dimes) (lo := -9 / 10) (hi := 1 / 2) accurate_binary64 Demo.world_init
    (Demo.quiet_delegates ?_) (by norm_num) (by norm_num)
    (Demo.gains_spec (f := fun w e e' => decide ((w.epics[e]?).map Epic.provider = (w.epics[e']?).map Epic.provider))
      (fun _ _ _ h => decide_eq_true h) (by decide +kernel)) ?_ (by unfold Spec.WithinRange; decide +kernel)).2
  · intro o ho
    simp only [Demo.dimes, List.mem_cons, List.not_mem_nil, or_false, reduceCtorEq, false_or, Cmd.op.injEq] at ho
    rcases ho with rfl | rfl
    · exact ⟨trivial, by simp [Op.Valid]⟩
    · exact ⟨trivial, by simp [Op.Valid, QOk]⟩
  · have h : ∀ t ∈ (Demo.world.runCmds Demo.quiet Demo.dimes).trades, t.dt ≠ Tick.epoch.dt := by decide +kernel
    exact fun i _ t ht => h t (List.mem_of_getElem? ht)

end Estrade
