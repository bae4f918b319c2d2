import Verif.Props.Results
import Verif.Lemmas.Range

/-!
# C23, C27, C37, C56 within the range of the float format

The exact-arithmetic theorems of `Props/Trades.lean` and `Props/Results.lean` are carried over to float formats with
53-bit precision (`Accurate`; binary64 by `accurate_binary64`): as long as the amounts, in cents, times the number of
operations stay below 2^43, the floats rounded to cents are the floats of the exact amounts.
-/

set_option linter.style.haveILetI false
set_option linter.unusedSectionVars false
set_option autoImplicit false

namespace Estrade

section
variable [Arith]

/-! ## A trade -/

/-- Spec: the gain per unit in cents, from a float price move. -/
def Spec.gain (d : Dir) (o v : ℚ) : ℚ := cent (fl (Spec.move d o v))

/-- Spec: what the closes of a trade brought in, exactly. -/
def Spec.banked (t : Trade) : ℚ :=
  (t.closes.map (fun c => Spec.gain t.dir t.openValue c.closeValue * c.qty)).sum

/-- Spec: what the open rest of a trade is worth, exactly. -/
def Spec.pending (t : Trade) : ℚ :=
  Spec.gain t.dir t.openValue t.curClose * (t.openQty - (t.closes.map TradeClose.qty).sum : ℤ)

/-- Spec: the amounts involved, without sign. -/
def Spec.turnover (t : Trade) : ℚ :=
  (t.closes.map (fun c => |Spec.gain t.dir t.openValue c.closeValue * c.qty|)).sum + |Spec.pending t|

theorem isCent_gain (d : Dir) (o v : ℚ) : IsCent (Spec.gain d o v) := isCent_cent _

theorem isCent_sum {l : List ℚ} (h : ∀ x ∈ l, IsCent x) : IsCent l.sum := by
  induction l with
  | nil => simpa using isCent_zero
  | cons x l ih => rw [List.sum_cons]; exact (h x (by simp)).add (ih fun y hy => h y (by simp [hy]))

theorem isCent_banked (t : Trade) : IsCent (Spec.banked t) := isCent_sum (by
  intro x hx
  obtain ⟨c, -, rfl⟩ := List.mem_map.mp hx
  exact (isCent_gain _ _ _).mul_int _)

theorem isCent_pending (t : Trade) : IsCent (Spec.pending t) := (isCent_gain _ _ _).mul_int _

theorem abs_sum_le {α : Type} (f : α → ℚ) (l : List α) : |(l.map f).sum| ≤ (l.map fun i => |f i|).sum := by
  induction l with
  | nil => simp
  | cons x l ih =>
    simp only [List.map_cons, List.sum_cons]
    exact (abs_add_le _ _).trans (by linarith)

theorem le_sum_of_mem {α : Type} (f : α → ℚ) {l : List α} (hf : ∀ i ∈ l, 0 ≤ f i) {i : α} (hi : i ∈ l) :
    f i ≤ (l.map f).sum :=
  List.single_le_sum (by
    intro x hx
    obtain ⟨j, hj, rfl⟩ := List.mem_map.mp hx
    exact hf j hj) _ (List.mem_map_of_mem hi)

theorem closeResult_gain (d : Dir) (o : ℚ) (c : TradeClose) :
    closeResult d o c = rnd (fmul (fl (Spec.gain d o c.closeValue)) c.qty) := by
  cases d <;> rfl

theorem natCast_le_of_mul {S : ℚ} {k : ℕ} (hS : 1 ≤ S) (hk : k * S ≤ 2 ^ 43) : k ≤ 2 ^ 43 := by
  have h0 : (0 : ℚ) ≤ k := k.cast_nonneg
  have : (k : ℚ) ≤ 2 ^ 43 := by nlinarith
  exact_mod_cast this

theorem mul_le_of_le {S : ℚ} {j k : ℕ} (hS : 1 ≤ S) (hjk : j ≤ k) (hk : k * S ≤ 2 ^ 43) : j * S ≤ 2 ^ 43 := by
  have : (j : ℚ) ≤ k := by exact_mod_cast hjk
  nlinarith

theorem sum_twos {α : Type} (l : List α) : (l.map (fun _ => 1 + 1)).sum = 2 * l.length := by
  induction l with
  | nil => rfl
  | cons x l ih => rw [List.map_cons, List.sum_cons, ih, List.length_cons]; omega

theorem openedResultAvg_gain (t : Trade) :
    t.openedResultAvg = if t.closed then 0 else fl (Spec.gain t.dir t.openValue t.curClose) := by
  unfold Trade.openedResultAvg
  cases t.dir <;> rfl

/-- The closed result of a trade is near the exact one. -/
theorem closedResult_apx (hA : Accurate) {S : ℚ} (hS : 1 ≤ S) (t : Trade)
    (hT : (t.closes.map (fun c => |Spec.gain t.dir t.openValue c.closeValue * c.qty|)).sum ≤ S)
    (hk : (2 * t.closes.length + 2 : ℕ) * S ≤ 2 ^ 43) :
    Apx S (2 * t.closes.length) t.closedResult (Spec.banked t) := by
  have h1 : ∀ c ∈ t.closes, Apx S 1 (closeResult t.dir t.openValue c)
      (Spec.gain t.dir t.openValue c.closeValue * c.qty) := by
    intro c hc
    have hle : |Spec.gain t.dir t.openValue c.closeValue * c.qty| ≤ S :=
      (le_sum_of_mem (fun c : TradeClose => |Spec.gain t.dir t.openValue c.closeValue * c.qty|)
        (fun _ _ => abs_nonneg _) hc).trans hT
    rw [closeResult_gain, (Apx.mul hA hS (isCent_gain _ _ _) c.qty hle).rnd ((isCent_gain _ _ _).mul_int _)
      (mul_le_of_le hS (by omega) hk)]
    exact Apx.fl hA hS hle
  have h2 := Apx.foldl hA hS (closeResult t.dir t.openValue)
    (fun c => Spec.gain t.dir t.openValue c.closeValue * c.qty) (fun _ => 1) t.closes 0 0 0 (Apx.zero hS) h1
    (by rw [abs_zero, zero_add]; exact hT) (by
      have := natCast_le_of_mul hS hk
      rw [sum_twos]
      omega)
  rw [sum_twos, zero_add, zero_add] at h2
  exact h2

/-- The result of a trade is near the exact one. -/
theorem result_apx (hA : Accurate) {S : ℚ} (hS : 1 ≤ S) (t : Trade) (hT : Spec.turnover t ≤ S)
    (hk : (2 * t.closes.length + 3 : ℕ) * S ≤ 2 ^ 43) :
    Apx S (2 * t.closes.length + 3) t.result (Spec.banked t + Spec.pending t) := by
  have hb := abs_sum_le (fun c : TradeClose => Spec.gain t.dir t.openValue c.closeValue * c.qty) t.closes
  have hp := abs_nonneg (Spec.pending t)
  have hn : 0 ≤ (t.closes.map (fun c => |Spec.gain t.dir t.openValue c.closeValue * c.qty|)).sum :=
    (abs_nonneg _).trans hb
  unfold Spec.turnover at hT
  have h1 := closedResult_apx hA hS t (by linarith) (mul_le_of_le hS (by omega) hk)
  have h2 : Apx S 2 t.openedResult (Spec.pending t) := by
    have hle : |Spec.pending t| ≤ S := by linarith
    unfold Trade.openedResult
    rw [openedResultAvg_gain]
    by_cases hc : t.closed
    · have h0 := t.closed_iff.mp hc
      rw [if_pos hc, h0, Int.cast_zero, fmul_zero_right]
      have : Spec.pending t = 0 := by
        unfold Spec.pending
        unfold Trade.openedQty Trade.closedQty at h0
        rw [h0, Int.cast_zero, mul_zero]
      rw [this]
      exact (Apx.zero hS).mono (by omega)
    · rw [if_neg hc]
      exact Apx.mul hA hS (isCent_gain _ _ _) t.openedQty hle
  have h3 := Apx.add hA hS h2 h1 (by
    have := abs_add_le (Spec.pending t) (Spec.banked t)
    unfold Spec.banked at *
    linarith) (by have := natCast_le_of_mul hS hk; omega)
  rw [add_comm (Spec.banked t)]
  exact h3.mono (by omega)

/-! ## C37, C56 -/

/-- Spec: number of float operations behind the result of a strategy. -/
def Spec.effort (own : List Trade) : ℕ := (own.map (fun t => 2 * t.closes.length + 4)).sum

/-- Spec: the amounts times the number of operations fit in the float format. -/
def Spec.WithinRange (own : List Trade) : Prop :=
  (Spec.effort own : ℚ) * max 1 (own.map Spec.turnover).sum ≤ 2 ^ 43

theorem turnover_nonneg (t : Trade) : 0 ≤ Spec.turnover t := by
  unfold Spec.turnover
  have hb := abs_sum_le (fun c : TradeClose => Spec.gain t.dir t.openValue c.closeValue * c.qty) t.closes
  have := (abs_nonneg _).trans hb
  have := abs_nonneg (Spec.pending t)
  linarith

theorem abs_worth_le (t : Trade) : |Spec.banked t + Spec.pending t| ≤ Spec.turnover t := by
  unfold Spec.turnover
  have hb := abs_sum_le (fun c : TradeClose => Spec.gain t.dir t.openValue c.closeValue * c.qty) t.closes
  have := abs_add_le (Spec.banked t) (Spec.pending t)
  unfold Spec.banked at *
  linarith

theorem strategyResult_range (hA : Accurate) {S : ℚ} (hS : 1 ≤ S) (own : List Trade)
    (hT : (own.map Spec.turnover).sum ≤ S) (hk : (Spec.effort own : ℚ) * S ≤ 2 ^ 43) :
    rnd (fsum (own.map Trade.result)) = fl ((own.map Spec.banked).sum + (own.map Spec.pending).sum) := by
  have h1 : ∀ t ∈ own, Apx S (2 * t.closes.length + 3) t.result (Spec.banked t + Spec.pending t) := by
    intro t ht
    have hle : Spec.turnover t ≤ S := (le_sum_of_mem Spec.turnover (fun t _ => turnover_nonneg t) ht).trans hT
    have hle2 : 2 * t.closes.length + 4 ≤ Spec.effort own :=
      List.single_le_sum (by intro x _; exact Nat.zero_le x) _
        (List.mem_map_of_mem (f := fun t : Trade => 2 * t.closes.length + 4) ht)
    exact result_apx hA hS t hle (mul_le_of_le hS (by omega) hk)
  have hsum : (own.map (fun t => |Spec.banked t + Spec.pending t|)).sum ≤ S :=
    (List.sum_le_sum (fun t _ => abs_worth_le t)).trans hT
  have h2 := Apx.foldl hA hS Trade.result (fun t => Spec.banked t + Spec.pending t)
    (fun t => 2 * t.closes.length + 3) own 0 0 0 (Apx.zero hS) h1
    (by rw [abs_zero, zero_add]; exact hsum) (by
      have := natCast_le_of_mul hS hk
      unfold Spec.effort at this
      show 0 + (own.map (fun t => 2 * t.closes.length + 4)).sum ≤ _
      omega)
  rw [zero_add, zero_add] at h2
  have h3 := h2.rnd (isCent_sum (by
    intro x hx
    obtain ⟨t, -, rfl⟩ := List.mem_map.mp hx
    exact (isCent_banked t).add (isCent_pending t))) hk
  rw [List.sum_map_add] at h3
  exact h3

/-- C37 in range: the result of the trades asked about is the float of the exact total in cents; so the order does
not matter (`C37_order_in_range`).  Missing for the full statement: `result([])` (`C37_false`), amounts out of range
(`C37_order_in_binary64`). -/
theorem C37_result_in_range_partial (hA : Accurate) (own : List Trade) (a : TradesArg) (ha : a ≠ .list [])
    (h : Spec.WithinRange (Spec.asked own a)) :
    strategyResult own a =
      fl (((Spec.asked own a).map Spec.banked).sum + ((Spec.asked own a).map Spec.pending).sum) := by
  rw [C37_result_in_floats own a ha]
  exact strategyResult_range hA (le_max_left _ _) _ (le_max_right _ _) h

theorem C37_order_in_range (hA : Accurate) (own own' l l' : List Trade) (h : l.Perm l') (hl : l ≠ [])
    (hr : Spec.WithinRange l) : strategyResult own (.list l) = strategyResult own' (.list l') ∧
      strategyResult own (.gen l) = strategyResult own' (.gen l') ∧
      strategyResult l .none = strategyResult l' .none := by
  have hr' : Spec.WithinRange l' := by
    unfold Spec.WithinRange Spec.effort at *
    rw [← (h.map _).sum_eq, ← (h.map Spec.turnover).sum_eq]; exact hr
  have hl' : l' ≠ [] := fun e => hl (by rw [e] at h; exact h.eq_nil)
  have e : (l.map Spec.banked).sum + (l.map Spec.pending).sum =
      (l'.map Spec.banked).sum + (l'.map Spec.pending).sum := by
    rw [(h.map Spec.banked).sum_eq, (h.map Spec.pending).sum_eq]
  refine ⟨?_, ?_, ?_⟩
  · rw [C37_result_in_range_partial hA own (.list l) (by simpa using hl) hr,
      C37_result_in_range_partial hA own' (.list l') (by simpa using hl') hr']
    exact congrArg fl e
  · rw [C37_result_in_range_partial hA own (.gen l) (by simp) hr,
      C37_result_in_range_partial hA own' (.gen l') (by simp) hr']
    exact congrArg fl e
  · rw [C37_result_in_range_partial hA l .none (by simp) hr,
      C37_result_in_range_partial hA l' .none (by simp) hr']
    exact congrArg fl e

/-- C56, accounting in range: realised plus unrealised, exact to the cent. -/
theorem C56_accounting_in_range_partial (hA : Accurate) (own : List Trade) (h : Spec.WithinRange own) :
    strategyResult own .none = fl ((own.map Spec.banked).sum + (own.map Spec.pending).sum) :=
  C37_result_in_range_partial hA own .none (by simp) h

theorem pending_of_closed {t : Trade} (h : t.openedQty = 0) : Spec.pending t = 0 := by
  unfold Spec.pending
  unfold Trade.openedQty Trade.closedQty at h
  rw [h, Int.cast_zero, mul_zero]

/-- Closing everything at the current quote moves the pending gain to the bank. -/
theorem closeFromTick_exact (t : Trade) (k : Tick) (hcur : t.curClose = Spec.exitQuote t.dir k) :
    Spec.banked (t.closeFromTick k none) = Spec.banked t + Spec.pending t ∧
    Spec.pending (t.closeFromTick k none) = 0 ∧
    Spec.turnover (t.closeFromTick k none) = Spec.turnover t ∧
    (t.closeFromTick k none).closes.length = t.closes.length + 1 := by
  have hcc : (t.update (Spec.exitQuote t.dir k)).curClose = t.curClose := by
    rw [Trade.update_curClose]; split_ifs
    · rfl
    · exact hcur.symm
  have hq : (t.update (Spec.exitQuote t.dir k)).closeQty none = t.openedQty := by
    rw [Trade.closeQty_none, Trade.update_openedQty]
  have hcl : (t.closeFromTick k none).closes = t.closes ++ [⟨t.curClose, t.openedQty, k.dt, .created⟩] := by
    unfold Trade.closeFromTick
    rw [updateFromTick_eq]
    unfold Trade.close
    simp only [Trade.update_closes, hcc, hq]
  have hd : (t.closeFromTick k none).dir = t.dir := by
    unfold Trade.closeFromTick; rw [updateFromTick_eq]; simp
  have ho : (t.closeFromTick k none).openValue = t.openValue := by
    unfold Trade.closeFromTick; rw [updateFromTick_eq]; simp
  have hz : Spec.pending (t.closeFromTick k none) = 0 := by
    apply pending_of_closed
    rw [closeFromTick_openedQty, Trade.closeQty_none]; omega
  refine ⟨?_, hz, ?_, ?_⟩
  · unfold Spec.banked
    rw [hcl, hd, ho]
    simp only [List.map_append, List.map_cons, List.map_nil, List.sum_append, List.sum_cons, List.sum_nil, add_zero]
    rfl
  · unfold Spec.turnover
    rw [hz, hcl, hd, ho]
    simp only [List.map_append, List.map_cons, List.map_nil, List.sum_append, List.sum_cons, List.sum_nil, add_zero,
      abs_zero]
    rfl
  · rw [hcl]; simp

/-- C56, neutrality in range: in every reachable state in which the open trades of the strategy carry their epic's
latest quote, closing all of them does not change its result (two more operations per trade are counted in the
range). -/
theorem C56_closing_is_neutral_in_range_partial (hA : Accurate) {env : Env} {w : World} (hw : Reachable env w) {s : ℕ}
    {st : Strategy} (hs : w.strategies[s]? = some st)
    (hcur : ∀ i ∈ st.trades, ∀ t ep, w.trades[i]? = some t → Spec.IsOpen t → w.epics[t.epic]? = some ep →
      t.curClose = Spec.exitQuote t.dir ep.lastTick)
    (hr : ((Spec.effort (st.trades.filterMap (fun i => w.trades[i]?)) + 2 * st.trades.length : ℕ) : ℚ) *
      max 1 ((st.trades.filterMap (fun i => w.trades[i]?)).map Spec.turnover).sum ≤ 2 ^ 43) :
    let w' := (w.step (.closeOpened s none)).1
    let own := st.trades.filterMap (fun i => w.trades[i]?)
    let own' := st.trades.filterMap (fun i => w'.trades[i]?)
    strategyResult own' .none = strategyResult own .none ∧
    strategyResult own' .none = fl ((own'.map Spec.banked).sum) ∧ own'.length = own.length := by
  obtain ⟨h1, h2, h3, h4, h5, h6⟩ := closeOpened_effect hw hs
  intro w' own own'
  have key : ∀ l : List ℕ, (∀ i ∈ l, i ∈ st.trades) →
      ((l.filterMap (fun i => w'.trades[i]?)).map Spec.banked).sum =
        ((l.filterMap (fun i => w.trades[i]?)).map Spec.banked).sum +
        ((l.filterMap (fun i => w.trades[i]?)).map Spec.pending).sum ∧
      ((l.filterMap (fun i => w'.trades[i]?)).map Spec.pending).sum = 0 ∧
      ((l.filterMap (fun i => w'.trades[i]?)).map Spec.turnover).sum =
        ((l.filterMap (fun i => w.trades[i]?)).map Spec.turnover).sum ∧
      Spec.effort (l.filterMap (fun i => w'.trades[i]?)) ≤
        Spec.effort (l.filterMap (fun i => w.trades[i]?)) + 2 * l.length ∧
      (l.filterMap (fun i => w'.trades[i]?)).length = (l.filterMap (fun i => w.trades[i]?)).length := by
    intro l
    induction l with
    | nil => intro _; exact ⟨by simp, rfl, rfl, by simp [Spec.effort], rfl⟩
    | cons i l ih =>
      intro hl
      obtain ⟨i1, i2, i3, i4, i5⟩ := ih (fun j hj => hl j (List.mem_cons_of_mem _ hj))
      obtain ⟨t, ep, k1, k2, k3⟩ := h6 i (hl i (by simp))
      have k3' : w'.trades[i]? = some (if t.closed then t else t.closeFromTick ep.lastTick none) := k3
      rw [List.filterMap_cons, List.filterMap_cons, k1, k3']
      simp only [List.map_cons, List.sum_cons, List.length_cons, Spec.effort] at i4 ⊢
      by_cases hc : t.closed = true
      · rw [if_pos hc, i1, i2, i3, i5, pending_of_closed (t.closed_iff.mp hc)]
        refine ⟨by ring, by ring, rfl, by omega, rfl⟩
      · rw [if_neg hc, i1, i2, i3, i5]
        obtain ⟨c1, c2, c3, c4⟩ := closeFromTick_exact t ep.lastTick
          (hcur i (hl i (by simp)) t ep k1 (by
            rw [isOpen_iff]; intro h0; exact hc (t.closed_iff.mpr h0)) k2)
        rw [c1, c2, c3, c4]
        refine ⟨by ring, by ring, rfl, by omega, rfl⟩
  obtain ⟨k1, k2, k3, k4, k5⟩ := key st.trades (fun _ h => h)
  have hS : (1 : ℚ) ≤ max 1 (own.map Spec.turnover).sum := le_max_left _ _
  have hown : strategyResult own .none = fl ((own.map Spec.banked).sum + (own.map Spec.pending).sum) :=
    C56_accounting_in_range_partial hA own (mul_le_of_le hS (Nat.le_add_right _ _) hr)
  have hown' : strategyResult own' .none = fl ((own'.map Spec.banked).sum + (own'.map Spec.pending).sum) := by
    apply C56_accounting_in_range_partial hA own'
    unfold Spec.WithinRange
    rw [show (own'.map Spec.turnover).sum = (own.map Spec.turnover).sum from k3]
    exact mul_le_of_le hS k4 hr
  rw [show (own'.map Spec.pending).sum = 0 from k2, add_zero] at hown'
  refine ⟨?_, hown', k5⟩
  rw [hown, hown', show (own'.map Spec.banked).sum = (own.map Spec.banked).sum + (own.map Spec.pending).sum from k1]

/-! ## C27 -/

/-- Spec: the amounts closed, without sign. -/
def Spec.volume (t : Trade) : ℚ :=
  (t.closes.map (fun c => |Spec.gain t.dir t.openValue c.closeValue * c.qty|)).sum

theorem turnover_eq (t : Trade) : Spec.turnover t = Spec.volume t + |Spec.pending t| := rfl

theorem close_exact (t : Trade) (v : ℚ) (dt : DT) (q : Option ℤ) :
    Spec.banked (t.close v dt q) = Spec.banked t + Spec.gain t.dir t.openValue v * t.closeQty q ∧
    Spec.volume (t.close v dt q) = Spec.volume t + |Spec.gain t.dir t.openValue v * t.closeQty q| ∧
    (t.close v dt q).closes.length = t.closes.length + 1 := by
  unfold Spec.banked Spec.volume Trade.close
  simp

/-- Closing in parts, in exact amounts. -/
theorem closeAll_exact (v : ℚ) (dt : DT) (t : Trade) (qs : List ℤ) (hq : ∀ n ∈ qs, 0 < n) (h0 : 0 ≤ t.openedQty) :
    Spec.banked (Spec.closeAll v dt t qs) =
      Spec.banked t + Spec.gain t.dir t.openValue v * (min qs.sum t.openedQty : ℤ) ∧
    Spec.volume (Spec.closeAll v dt t qs) =
      Spec.volume t + |Spec.gain t.dir t.openValue v| * (min qs.sum t.openedQty : ℤ) ∧
    (Spec.closeAll v dt t qs).closes.length = t.closes.length + qs.length ∧
    (Spec.closeAll v dt t qs).dir = t.dir ∧ (Spec.closeAll v dt t qs).openValue = t.openValue ∧
    (Spec.closeAll v dt t qs).curClose = t.curClose ∧ (Spec.closeAll v dt t qs).openQty = t.openQty := by
  induction qs generalizing t with
  | nil =>
    have : min (0 : ℤ) t.openedQty = 0 := min_eq_left h0
    simp [Spec.closeAll, this]
  | cons n qs ih =>
    have hn := hq n (by simp)
    have hs : 0 ≤ qs.sum := List.sum_nonneg (fun m hm => (hq m (by simp [hm])).le)
    have e : Spec.closeAll v dt t (n :: qs) = Spec.closeAll v dt (t.close v dt (some n)) qs := rfl
    have hcq := t.closeQty_of_ne hn.ne'
    have hopen : (t.close v dt (some n)).openedQty = t.openedQty - min n t.openedQty := by
      rw [Trade.close_openedQty, hcq]
    obtain ⟨i1, i2, i3, i4, i5, i6, i7⟩ := ih (t.close v dt (some n)) (fun m hm => hq m (by simp [hm]))
      (by rw [hopen]; omega)
    obtain ⟨c1, c2, c3⟩ := close_exact t v dt (some n)
    have hsum : (min (n :: qs).sum t.openedQty : ℤ) =
        min n t.openedQty + min qs.sum (t.openedQty - min n t.openedQty) := by
      rw [List.sum_cons]; omega
    have hnn : (0 : ℚ) ≤ (min n t.openedQty : ℤ) := by exact_mod_cast le_min hn.le h0
    rw [e, i1, i2, i3, i4, i5, i6, i7, c1, c2, c3, hcq, hopen, hsum]
    simp only [Trade.close_dir, Trade.close_openValue, Trade.close_curClose, Trade.close_openQty, Int.cast_add,
      abs_mul, abs_of_nonneg hnn, List.length_cons, and_true]
    refine ⟨by ring, by ring, by omega⟩

/-- C27 in range: closing in parts brings in the same as closing once, to the cent; the quantities are the same
anyway.  Missing for the full statement: equality of the last bits of the unrounded floats, which is false
(`C27_not_in_binary64`). -/
theorem C27_split_close_in_range_partial (hA : Accurate) (t : Trade) (h0 : 0 ≤ t.openedQty) (v : ℚ) (dt dt' : DT)
    (qs : List ℤ) (hne : qs ≠ []) (hq : ∀ n ∈ qs, 0 < n)
    (hr : ((2 * (t.closes.length + qs.length) + 3 : ℕ) : ℚ) *
      max 1 (Spec.turnover (t.close v dt' (some qs.sum))) ≤ 2 ^ 43) :
    rnd (Spec.closeAll v dt t qs).closedResult = rnd (t.close v dt' (some qs.sum)).closedResult ∧
    rnd (Spec.closeAll v dt t qs).result = rnd (t.close v dt' (some qs.sum)).result ∧
    rnd (Spec.closeAll v dt t qs).closedResult =
      fl (Spec.banked t + Spec.gain t.dir t.openValue v * (min qs.sum t.openedQty : ℤ)) := by
  have hpos : 0 < qs.sum := List.sum_pos qs hq hne
  have hlen : 1 ≤ qs.length := List.length_pos_of_ne_nil hne
  obtain ⟨a1, a2, a3, a4, a5, a6, a7⟩ := closeAll_exact v dt t qs hq h0
  obtain ⟨c1, c2, c3⟩ := close_exact t v dt' (some qs.sum)
  rw [t.closeQty_of_ne hpos.ne'] at c1 c2
  have hnn : (0 : ℚ) ≤ (min qs.sum t.openedQty : ℤ) := by exact_mod_cast le_min hpos.le h0
  rw [abs_mul, abs_of_nonneg hnn] at c2
  have ho : (Spec.closeAll v dt t qs).openedQty = (t.close v dt' (some qs.sum)).openedQty := by
    rw [closeAll_quantities v dt t qs hq h0, Trade.close_openedQty, t.closeQty_of_ne hpos.ne']
  have hb : Spec.banked (Spec.closeAll v dt t qs) = Spec.banked (t.close v dt' (some qs.sum)) := by rw [a1, c1]
  have hp : Spec.pending (Spec.closeAll v dt t qs) = Spec.pending (t.close v dt' (some qs.sum)) := by
    change Spec.gain _ _ _ * ((Spec.closeAll v dt t qs).openedQty : ℚ) =
      Spec.gain _ _ _ * ((t.close v dt' (some qs.sum)).openedQty : ℚ)
    rw [ho, a4, a5, a6]
    rfl
  have hvol : Spec.volume (Spec.closeAll v dt t qs) = Spec.volume (t.close v dt' (some qs.sum)) := by rw [a2, c2]
  have ht : Spec.turnover (Spec.closeAll v dt t qs) = Spec.turnover (t.close v dt' (some qs.sum)) := by
    rw [turnover_eq, turnover_eq, hvol, hp]
  have hS : (1 : ℚ) ≤ max 1 (Spec.turnover (t.close v dt' (some qs.sum))) := le_max_left _ _
  have hle := le_max_right 1 (Spec.turnover (t.close v dt' (some qs.sum)))
  have habs := abs_nonneg (Spec.pending (t.close v dt' (some qs.sum)))
  have hvle : Spec.volume (t.close v dt' (some qs.sum)) ≤ max 1 (Spec.turnover (t.close v dt' (some qs.sum))) := by
    refine le_trans ?_ hle
    rw [turnover_eq]; linarith
  have r1 : rnd (Spec.closeAll v dt t qs).closedResult = fl (Spec.banked (Spec.closeAll v dt t qs)) := by
    apply (closedResult_apx hA hS _ (hvol.le.trans hvle) (mul_le_of_le hS (by omega) hr)).rnd (isCent_banked _)
    exact mul_le_of_le hS (by omega) hr
  have r2 : rnd (t.close v dt' (some qs.sum)).closedResult = fl (Spec.banked (t.close v dt' (some qs.sum))) := by
    apply (closedResult_apx hA hS _ hvle (mul_le_of_le hS (by omega) hr)).rnd (isCent_banked _)
    exact mul_le_of_le hS (by omega) hr
  have r3 := (result_apx hA hS (Spec.closeAll v dt t qs) (ht.le.trans hle) (mul_le_of_le hS (by omega) hr)).rnd
    ((isCent_banked _).add (isCent_pending _)) (mul_le_of_le hS (by omega) hr)
  have r4 := (result_apx hA hS (t.close v dt' (some qs.sum)) hle (mul_le_of_le hS (by omega) hr)).rnd
    ((isCent_banked _).add (isCent_pending _)) (mul_le_of_le hS (by omega) hr)
  refine ⟨by rw [r1, r2, hb], by rw [r3, r4, hb, hp], by rw [r1, a1]⟩

/-! ## C23 -/

/-- The cent-rounded float move between two prices given in cents is the exact move. -/
theorem gain_cents (hA : Accurate) (d : Dir) {P o v : ℚ} (ho : IsCent o) (hv : IsCent v) (hP : P ≤ 2 ^ 40)
    (hoP : |o| ≤ P) (hvP : |v| ≤ P) : Spec.gain d (fl o) (fl v) = Spec.move d o v := by
  have hS : (1 : ℚ) ≤ max 1 (2 * P) := le_max_left _ _
  have hS2 := le_max_right 1 (2 * P)
  have hP0 : 0 ≤ P := (abs_nonneg _).trans hoP
  have key : ∀ a b : ℚ, IsCent a → IsCent b → |a| ≤ P → |b| ≤ P → cent (fl (fl a - fl b)) = a - b := by
    intro a b ha hb haP hbP
    have h1 := Apx.fl hA hS (s := a) (by linarith)
    have h2 := Apx.fl hA hS (s := -b) (by rw [abs_neg]; linarith)
    have h3 := Apx.add hA hS h1 h2 (by
      have := abs_add_le a (-b)
      rw [abs_neg] at this
      linarith) (by norm_num)
    rw [fl_neg, ← sub_eq_add_neg] at h3
    have h4 : fadd (fl a) (-fl b) = fl (fl a - fl b) := by unfold fadd; rw [sub_eq_add_neg]
    rw [h4] at h3
    refine cent_of_near (ha.sub hb) (lt_of_le_of_lt h3.near ?_)
    have : max 1 (2 * P) ≤ 2 ^ 41 := max_le (by norm_num) (by linarith)
    calc ((1 + 1 + 1 : ℕ) : ℚ) * (max 1 (2 * P) / 2 ^ 51) ≤ (1 + 1 + 1 : ℕ) * (2 ^ 41 / 2 ^ 51) := by gcongr
      _ < 1 / 200 := by norm_num
  unfold Spec.gain Spec.move
  cases d
  · exact key v o hv ho hvP hoP
  · exact key o v ho hv hoP hvP

/-- Spec: a price in cents of at most `P`. -/
def Spec.Price (P v : ℚ) : Prop := IsCent v ∧ |v| ≤ P

/-- Spec: all the prices of a call are in cents and at most `P`. -/
def Spec.TradeOp.Priced (P : ℚ) : Spec.TradeOp → Prop
  | .update v => Spec.Price P v
  | .tick k => Spec.Price P k.bid ∧ Spec.Price P k.ask
  | .close v _ _ => Spec.Price P v
  | .closeTick k _ => Spec.Price P k.bid ∧ Spec.Price P k.ask

/-- Spec: the call as the program gets it, with prices as floats. -/
def Spec.TradeOp.floats : Spec.TradeOp → Spec.TradeOp
  | .update v => .update (fl v)
  | .tick k => .tick ⟨k.dt, fl k.bid, fl k.ask⟩
  | .close v dt q => .close (fl v) dt q
  | .closeTick k q => .closeTick ⟨k.dt, fl k.bid, fl k.ask⟩ q

/-- The account, on prices in cents, of a trade on floats. -/
structure Tracks (P o : ℚ) (t : Trade) (a : Spec.Account) : Prop where
  units : t.openedQty = a.units
  nonneg : 0 ≤ t.openedQty
  price : t.curClose = fl a.price
  priced : Spec.Price P a.price
  cash : Spec.banked t = a.cash
  opened : t.openValue = fl o
  volume : Spec.volume t ≤ 2 * P * (t.openQty - t.openedQty : ℤ)

theorem abs_move_le (d : Dir) {P o v : ℚ} (ho : |o| ≤ P) (hv : |v| ≤ P) : |Spec.move d o v| ≤ 2 * P := by
  unfold Spec.move
  cases d
  · have := abs_sub v o; show |v - o| ≤ _; linarith
  · have := abs_sub o v; show |o - v| ≤ _; linarith

theorem IsCent.move (d : Dir) {o v : ℚ} (ho : IsCent o) (hv : IsCent v) : IsCent (Spec.move d o v) := by
  cases d
  · exact hv.sub ho
  · exact ho.sub hv

theorem Tracks.quote {P o : ℚ} {t : Trade} {a : Spec.Account} (h : Tracks P o t a) {v : ℚ} (hv : Spec.Price P v) :
    Tracks P o (t.update (fl v)) (a.quote v) := by
  unfold Spec.Account.quote
  by_cases hc : t.closed
  · have : a.units = 0 := by rw [← h.units]; exact t.closed_iff.mp hc
    rw [if_pos this, Trade.update_closed _ hc]
    exact h
  · have : a.units ≠ 0 := fun e => hc (t.closed_iff.mpr (h.units.trans e))
    rw [if_neg this]
    refine ⟨by simpa using h.units, by simpa using h.nonneg, by rw [Trade.update_curClose, if_neg hc], hv, ?_, ?_, ?_⟩
    · unfold Spec.banked; simp only [Trade.update_dir, Trade.update_openValue, Trade.update_closes]; exact h.cash
    · simpa using h.opened
    · unfold Spec.volume
      simp only [Trade.update_dir, Trade.update_openValue, Trade.update_closes, Trade.update_openQty,
        Trade.update_openedQty]
      exact h.volume

theorem Tracks.sell (hA : Accurate) {P o : ℚ} (hP : P ≤ 2 ^ 40) (ho : Spec.Price P o) {t : Trade} {a : Spec.Account}
    (h : Tracks P o t a) {v : ℚ} (hv : Spec.Price P v) (dt : DT) (q : Option ℤ) (hq : ∀ n, q = some n → 0 ≤ n) :
    Tracks P o (t.close (fl v) dt q) (a.sell t.dir o v q) := by
  unfold Spec.Account.sell
  have hg : Spec.gain t.dir t.openValue (fl v) = Spec.move t.dir o v := by
    rw [h.opened]; exact gain_cents hA _ ho.1 hv.1 hP ho.2 hv.2
  have hcq := closeQty_ledger t q
  simp only [h.units] at hcq
  have hb := Trade.closeQty_bounds h.nonneg (q := q) hq
  obtain ⟨c1, c2, c3⟩ := close_exact t (fl v) dt q
  rw [hg] at c1 c2
  refine ⟨?_, ?_, h.price, h.priced, ?_, h.opened, ?_⟩
  · rw [Trade.close_openedQty, h.units, hcq]
  · rw [Trade.close_openedQty]; omega
  · rw [c1, h.cash, (IsCent.move t.dir ho.1 hv.1).cent, ← hcq, mul_comm]
  · rw [c2, Trade.close_openedQty, Trade.close_openQty]
    have h1 := h.volume
    have h2 := abs_move_le t.dir ho.2 hv.2
    have h3 : (0 : ℚ) ≤ (t.closeQty q : ℤ) := by exact_mod_cast hb.1
    rw [abs_mul, abs_of_nonneg h3]
    have h4 := mul_le_mul_of_nonneg_right h2 h3
    push_cast at h1 ⊢
    linarith

theorem exitQuote_floats (d : Dir) (k : Tick) :
    Spec.exitQuote d ⟨k.dt, fl k.bid, fl k.ask⟩ = fl (Spec.exitQuote d k) := by cases d <;> rfl

theorem price_exit (d : Dir) {P : ℚ} {k : Tick} (h : Spec.Price P k.bid ∧ Spec.Price P k.ask) :
    Spec.Price P (Spec.exitQuote d k) := by
  cases d
  · exact h.1
  · exact h.2

theorem Tracks.run (hA : Accurate) {P o : ℚ} (hP : P ≤ 2 ^ 40) (ho : Spec.Price P o) {t : Trade} {a : Spec.Account}
    (h : Tracks P o t a) (x : Spec.TradeOp) (hx : x.Priced P) (hv : x.Valid) :
    Tracks P o (x.floats.run t) (a.step t.dir o x) := by
  cases x with
  | update v => exact h.quote hx
  | tick k =>
    simp only [Spec.TradeOp.floats, Spec.TradeOp.run, updateFromTick_eq, exitQuote_floats]
    exact h.quote (price_exit t.dir hx)
  | close v dt q => exact h.sell hA hP ho hx dt q (fun n hn => hv n (by rw [hn]; rfl))
  | closeTick k q =>
    simp only [Spec.TradeOp.floats, Spec.TradeOp.run, Trade.closeFromTick, updateFromTick_eq, exitQuote_floats]
    have h2 := h.quote (price_exit t.dir hx)
    have h3 := h2.sell hA hP ho h2.priced k.dt q (fun n hn => hv n (by rw [hn]; rfl))
    simp only [Trade.update_dir] at h3
    rw [h2.price]
    exact h3

theorem Tracks.after (hA : Accurate) {P o : ℚ} (hP : P ≤ 2 ^ 40) (ho : Spec.Price P o) {t : Trade} {a : Spec.Account}
    (h : Tracks P o t a) (ops : List Spec.TradeOp) (hx : ∀ x ∈ ops, x.Priced P) (hv : ∀ x ∈ ops, x.Valid) :
    Tracks P o (t.after (ops.map Spec.TradeOp.floats)) (ops.foldl (Spec.Account.step t.dir o) a) := by
  induction ops using List.reverseRecOn with
  | nil => exact h
  | append_singleton ops x ih =>
    rw [List.map_append, List.map_singleton, Trade.after_concat, List.foldl_append]
    have := (ih (fun x hx' => hx x (by simp [hx'])) (fun x hx' => hv x (by simp [hx']))).run hA hP ho x
      (hx x (by simp)) (hv x (by simp))
    rw [(after_fixed t _).1] at this
    exact this

theorem after_length (t : Trade) (ops : List Spec.TradeOp) :
    (t.after ops).closes.length ≤ t.closes.length + ops.length := by
  have h := congrArg List.length (after_ledger t ops)
  rw [List.length_append, List.length_map, List.length_map] at h
  have h2 : ∀ (Q : ℤ) (l : List (Option ℤ)), (Spec.ledger Q l).length = l.length := by
    intro Q l
    induction l generalizing Q with
    | nil => rfl
    | cons r l ih => simp [Spec.ledger, ih]
  have h3 := List.length_filterMap_le Spec.TradeOp.request ops
  rw [h2] at h
  omega

/-- C23 in binary64 and every format as accurate: a trade of `Q ≥ 0` units on prices in cents of at most `P`,
after any calls.  If `2 * P * Q`, the largest amount there can be, times the number of operations is below 2^43, then
its result rounded to cents is the float of the bookkeeper's exact account of the same calls, and the unrounded
result is less than half a cent away from it. -/
theorem C23_result_in_range (hA : Accurate) (d : Dir) (Q : ℤ) (hQ : 0 ≤ Q) (o : ℚ) (dt : DT) (e : ℕ) (c : Option ℚ)
    (s : Option ℕ) (st : Status) (ops : List Spec.TradeOp) (P : ℚ) (hP : P ≤ 2 ^ 40) (ho : Spec.Price P o)
    (hc : ∀ x, c = some x → Spec.Price P x) (hx : ∀ x ∈ ops, x.Priced P) (hv : ∀ x ∈ ops, x.Valid)
    (hr : ((2 * ops.length + 3 : ℕ) : ℚ) * max 1 (2 * P * Q) ≤ 2 ^ 43) :
    let p := match c with | none => o | some x => if x = 0 then o else x
    let t := (Trade.new d Q (fl o) dt e (c.map fl) s st).after (ops.map Spec.TradeOp.floats)
    let a := ops.foldl (Spec.Account.step d o) ⟨Q, 0, p⟩
    rnd t.result = fl (a.worth d o) ∧ |t.result - a.worth d o| < 1 / 200 := by
  intro p t a
  have hp : Spec.Price P p := by
    cases c with
    | none => exact ho
    | some x =>
      show Spec.Price P (if x = 0 then o else x)
      split_ifs
      · exact ho
      · exact hc x rfl
  have hP0 : 0 ≤ P := (abs_nonneg _).trans ho.2
  have hpc : (match c.map fl with | none => fl o | some x => if x = 0 then fl o else x) = fl p := by
    cases c with
    | none => rfl
    | some x =>
      show (if fl x = 0 then fl o else fl x) = fl (if x = 0 then o else x)
      by_cases h0 : x = 0
      · rw [if_pos h0, if_pos (by rw [h0, fl_zero])]
      · rw [if_neg h0, if_neg]
        intro hz
        have hx1 := hc x rfl
        have h1 := hA x
        rw [hz, zero_sub, abs_neg] at h1
        obtain ⟨n, rfl⟩ := hx1.1
        have hn : n ≠ 0 := by rintro rfl; simp at h0
        have hn1 : (1 : ℤ) ≤ |n| := Int.one_le_abs hn
        have hn2 : (1 : ℚ) ≤ |(n : ℚ)| := by exact_mod_cast hn1
        rw [abs_div, abs_of_pos (by norm_num : (0 : ℚ) < 100)] at h1
        have h2 : |(n : ℚ)| / 100 / 2 ^ 53 ≤ |(n : ℚ)| / 100 / 2 := by
          gcongr; norm_num
        have h3 : (1 : ℚ) / 2 ^ 200 < 1 / 200 := by norm_num
        linarith
  have h0 : Tracks P o (Trade.new d Q (fl o) dt e (c.map fl) s st) ⟨Q, 0, p⟩ := by
    refine ⟨by simp [Trade.new, Trade.openedQty, Trade.closedQty],
      by simpa [Trade.new, Trade.openedQty, Trade.closedQty] using hQ, ?_, hp,
      by simp [Trade.new, Spec.banked], rfl, by simp [Trade.new, Spec.volume, Trade.openedQty, Trade.closedQty]⟩
    exact hpc
  have h := h0.after hA hP ho ops hx hv
  change Tracks P o t a at h
  have hd : t.dir = d := (after_fixed _ _).1
  have hoq : t.openQty = Q := after_openQty _ _
  have hlen : t.closes.length ≤ ops.length := by
    have := after_length (Trade.new d Q (fl o) dt e (c.map fl) s st) (ops.map Spec.TradeOp.floats)
    rw [List.length_map] at this
    have hz : (Trade.new d Q (fl o) dt e (c.map fl) s st).closes.length = 0 := rfl
    rw [hz, zero_add] at this
    exact this
  have hg : Spec.gain t.dir t.openValue t.curClose = Spec.move d o a.price := by
    rw [h.opened, h.price, hd]; exact gain_cents hA _ ho.1 h.priced.1 hP ho.2 h.priced.2
  have hpend : Spec.pending t = a.units * cent (Spec.move d o a.price) := by
    rw [(IsCent.move d ho.1 h.priced.1).cent, mul_comm, ← hg, ← h.units]
    rfl
  have hturn : Spec.turnover t ≤ 2 * P * Q := by
    rw [turnover_eq]
    have h1 := h.volume
    have h2 : |Spec.pending t| ≤ 2 * P * t.openedQty := by
      change |Spec.gain t.dir t.openValue t.curClose * (t.openedQty : ℚ)| ≤ _
      have h3 : (0 : ℚ) ≤ (t.openedQty : ℤ) := by exact_mod_cast h.nonneg
      rw [hg, abs_mul, abs_of_nonneg h3]
      exact mul_le_mul_of_nonneg_right (abs_move_le d ho.2 h.priced.2) h3
    rw [hoq] at h1
    push_cast at h1
    linarith
  have hS : (1 : ℚ) ≤ max 1 (2 * P * Q) := le_max_left _ _
  have hk := mul_le_of_le (j := 2 * t.closes.length + 3) hS (by omega) hr
  have hapx := result_apx hA hS t (hturn.trans (le_max_right _ _)) hk
  have hw : Spec.banked t + Spec.pending t = a.worth d o := by
    unfold Spec.Account.worth; rw [h.cash, hpend]
  rw [hw] at hapx
  refine ⟨?_, lt_of_le_of_lt hapx.near ?_⟩
  · refine hapx.rnd ?_ hk
    rw [← hw]; exact (isCent_banked _).add (isCent_pending _)
  · have : ((2 * t.closes.length + 3 : ℕ) : ℚ) * (max 1 (2 * P * Q) / 2 ^ 51) =
      (2 * t.closes.length + 3 : ℕ) * max 1 (2 * P * Q) / 2 ^ 51 := by ring
    rw [this]
    calc _ ≤ (2 : ℚ) ^ 43 / 2 ^ 51 := by gcongr
      _ < 1 / 200 := by norm_num

end

/-! ## Concrete cases in binary64 -/

/-- C56 in binary64 (its hypothesis holds for a portfolio with amounts of a billion). -/
theorem C56_accounting_binary64_partial (own : List Trade) :
    letI := Arith.binary64
    Spec.WithinRange own →
      strategyResult own .none = fl ((own.map Spec.banked).sum + (own.map Spec.pending).sum) :=
  letI := Arith.binary64
  fun h => C56_accounting_in_range_partial accurate_binary64 own h

example : letI := Arith.binary64
    let own := [Trade.new .buy 3 1 Demo.dt 0 (some (fl (11/10))) none,
      (Trade.new .sell 1000000 (fl (100007/100)) Demo.dt 0 (some 2) none).close (fl (20/100)) Demo.dt (some 999)]
    ((Spec.effort own : ℚ) * max 1 (own.map Spec.turnover).sum ≤ 2 ^ 43) ∧ (own.map Spec.banked).sum = 99887013/100 ∧ (own.map Spec.pending).sum = 99707292837/100 ∧
    strategyResult own .none = fl (99807179850/100) := by decide +kernel

/-- C27 where the unrounded floats differ (`C27_not_in_binary64`): rounded to cents they agree. -/
example : letI := Arith.binary64
    let t := Trade.new .buy 3 1 Demo.dt 0 none none
    ((2 * (t.closes.length + [1, 2].length) + 3 : ℕ) : ℚ) *
      max 1 (Spec.turnover (t.close (fl (11/10)) Demo.dt (some [1, 2].sum))) ≤ 2 ^ 43 ∧
    (Spec.closeAll (fl (11/10)) Demo.dt t [1, 2]).closedResult ≠
      (t.close (fl (11/10)) Demo.dt (some 3)).closedResult ∧
    rnd (Spec.closeAll (fl (11/10)) Demo.dt t [1, 2]).closedResult = fl (3/10) ∧
    rnd (t.close (fl (11/10)) Demo.dt (some 3)).closedResult = fl (3/10) := by decide +kernel

/-- C23 in binary64: a hundred thousand units at prices up to ten thousand, 300 calls. -/
theorem C23_result_binary64 (d : Dir) (Q : ℤ) (hQ : 0 ≤ Q) (hQ' : Q ≤ 100000) (o : ℚ) (dt : DT) (e : ℕ) (c : Option ℚ)
    (s : Option ℕ) (st : Status) (ops : List Spec.TradeOp) (hl : ops.length ≤ 300) (ho : Spec.Price 10000 o)
    (hc : ∀ x, c = some x → Spec.Price 10000 x) (hx : ∀ x ∈ ops, x.Priced 10000) (hv : ∀ x ∈ ops, x.Valid) :
    letI := Arith.binary64
    let p := match c with | none => o | some x => if x = 0 then o else x
    rnd ((Trade.new d Q (fl o) dt e (c.map fl) s st).after (ops.map Spec.TradeOp.floats)).result =
      fl ((ops.foldl (Spec.Account.step d o) ⟨Q, 0, p⟩).worth d o) := by
  letI := Arith.binary64
  have hQ2 : (Q : ℚ) ≤ 100000 := by exact_mod_cast hQ'
  have hl2 : ((2 * ops.length + 3 : ℕ) : ℚ) ≤ 603 := by exact_mod_cast (by omega : 2 * ops.length + 3 ≤ 603)
  have hr : ((2 * ops.length + 3 : ℕ) : ℚ) * max 1 (2 * 10000 * (Q : ℚ)) ≤ 2 ^ 43 := ?_
  · cases c <;> exact (C23_result_in_range accurate_binary64 d Q hQ o dt e _ s st ops 10000 (by norm_num) ho hc hx hv hr).1
  have h1 : max 1 (2 * 10000 * (Q : ℚ)) ≤ 2000000000 := max_le (by norm_num) (by linarith)
  have h2 : (0 : ℚ) ≤ max 1 (2 * 10000 * (Q : ℚ)) := le_trans zero_le_one (le_max_left _ _)
  calc _ ≤ (603 : ℚ) * 2000000000 := by gcongr
    _ ≤ 2 ^ 43 := by norm_num

example : letI := Arith.binary64
    let ops : List Spec.TradeOp := [.tick ⟨Demo.dt, 101/10, 104/10⟩, .closeTick ⟨Demo.dt, 1007/100, 11⟩ (some 7),
      .close (913/100) Demo.dt (some 1), .update (1009/100)]
    let t := (Trade.new .buy 11 (fl (999/100)) Demo.dt 0 none none).after (ops.map Spec.TradeOp.floats)
    let a := ops.foldl (Spec.Account.step .buy (999/100)) ⟨11, 0, 999/100⟩
    a.worth .buy (999/100) = 0 ∧ t.result ≠ 0 ∧ rnd t.result = 0 := by
  decide +kernel

end Estrade
