import Verif.Props.Books
import Verif.Props.Marked

/-!
# C109: the result of a strategy follows from what the providers were asked to do
-/

set_option autoImplicit false
set_option linter.style.haveILetI false
set_option linter.unusedSectionVars false

namespace Estrade

/-- Spec: all requests, provider by provider. -/
def Spec.statement (w : World) : List Target := (List.range w.providers.length).flatMap (Spec.requests w)

/-- Spec: the money a deal brings in: selling brings in price times quantity, buying costs it. -/
def Spec.sold (d : Dir) (n : ℤ) (price : ℚ) : ℚ :=
  match d with
  | .sell => n * price
  | .buy => -(n * price)

/-- Spec: the direction of the deal that ends a position. -/
def Spec.contrary : Dir → Dir
  | .buy => .sell
  | .sell => .buy

/-- Spec: the money a request brings in: an opening deals the quantity of the trade at its open value, a close deals the other way, the quantity of the
close at its value. -/
def Spec.cash (w : World) : Target → ℚ
  | .opening i =>
    match w.trades[i]? with
    | none => 0
    | some t => Spec.sold t.dir t.openQty t.openValue
  | .closing i k =>
    match w.trades[i]? with
    | none => 0
    | some t =>
      match t.closes[k]? with
      | none => 0
      | some c => Spec.sold (Spec.contrary t.dir) c.qty c.closeValue

/-- Spec: what the units still held would bring in at the last price of the trade. -/
def Spec.stock (t : Trade) : ℚ := Spec.sold (Spec.contrary t.dir) (t.openQty - (t.closes.map TradeClose.qty).sum) t.curClose

/-- Spec: the request is about one of the trades `ids`. -/
def Spec.concerns (ids : List ℕ) : Target → Bool
  | .opening i => decide (i ∈ ids)
  | .closing i _ => decide (i ∈ ids)

/-- Spec: cash and stock of the trades `ids`. -/
def Spec.balance (w : World) (ids : List ℕ) : ℚ :=
  (((Spec.statement w).filter (Spec.concerns ids)).map (Spec.cash w)).sum + Spec.over w Spec.stock ids

/-- Spec: all prices of a trade are in whole cents. -/
def Spec.InCents (t : Trade) : Prop := IsCent t.openValue ∧ IsCent t.curClose ∧ ∀ c ∈ t.closes, IsCent c.closeValue

section
variable [Arith]

/-! ## The requests about a list of trades -/

/-- The number of closes of trade `i`. -/
def closesOf (w : World) (i : ℕ) : List TradeClose :=
  match w.trades[i]? with
  | none => []
  | some t => t.closes

/-- The requests about trade `i`. -/
def requestsOf (w : World) (i : ℕ) : List Target := .opening i :: (List.range (closesOf w i).length).map (Target.closing i)

theorem mem_requestsOf {w : World} {i : ℕ} {tg : Target} : tg ∈ requestsOf w i ↔
    tg = .opening i ∨ ∃ k, k < (closesOf w i).length ∧ tg = .closing i k := by
  unfold requestsOf
  rw [List.mem_cons, List.mem_map]
  simp only [List.mem_range, eq_comm]

theorem mem_statement {w : World} {tg : Target} : tg ∈ Spec.statement w ↔ ∃ p, tg ∈ Spec.requests w p := by
  unfold Spec.statement
  rw [List.mem_flatMap]
  constructor
  · rintro ⟨p, -, h⟩; exact ⟨p, h⟩
  · rintro ⟨p, h⟩
    obtain ⟨pr, hp, -⟩ := mem_requests.mp h
    exact ⟨p, List.mem_range.mpr (List.getElem?_eq_some_iff.mp hp).1, h⟩

theorem statement_nodup {env : Env} {w : World} (hw : Reachable env w) : (Spec.statement w).Nodup := by
  unfold Spec.statement
  refine List.nodup_flatMap.mpr ⟨fun p _ => (C76_once hw).1 p, ?_⟩
  refine List.nodup_range.imp ?_
  intro p p' hne tg h1 h2
  exact hne ((C76_once hw).2 p p' tg h1 h2)

theorem requestsOf_nodup (w : World) {ids : List ℕ} (hn : ids.Nodup) : (ids.flatMap (requestsOf w)).Nodup := by
  refine List.nodup_flatMap.mpr ⟨fun i _ => ?_, hn.imp ?_⟩
  · unfold requestsOf
    refine List.nodup_cons.mpr ⟨?_, ?_⟩
    · rw [List.mem_map]
      rintro ⟨k, -, hk⟩
      cases hk
    · exact List.nodup_range.map (fun a b h => by injection h)
  · intro i j hij tg h1 h2
    rcases mem_requestsOf.mp h1 with rfl | ⟨k, -, rfl⟩ <;> rcases mem_requestsOf.mp h2 with h | ⟨k', -, h⟩ <;> cases h
    · exact hij rfl
    · exact hij rfl

/-- In programs that close through the API objects, the statement contains each opening and each close of listed trades once. -/
theorem statement_perm {env : Env} {w0 : World} (h0 : w0.Init) (l : List Cmd) (hd : Spec.NoDirectClose env l) {ids : List ℕ} (hn : ids.Nodup)
    (hl : ∀ i ∈ ids, i ∈ Spec.providerBook (w0.runCmds env l)) :
    ((Spec.statement (w0.runCmds env l)).filter (Spec.concerns ids)).Perm (ids.flatMap (requestsOf (w0.runCmds env l))) := by
  have hr : Reachable env (w0.runCmds env l) := ⟨w0, h0, l, rfl⟩
  refine (List.perm_ext_iff_of_nodup ((statement_nodup hr).filter _) (requestsOf_nodup _ hn)).mpr ?_
  intro tg
  rw [List.mem_filter, mem_statement, List.mem_flatMap]
  have hcl : ∀ i k, k < (closesOf (w0.runCmds env l) i).length ↔ ∃ t, (w0.runCmds env l).trades[i]? = some t ∧ k < t.closes.length := by
    intro i k
    unfold closesOf
    rcases (w0.runCmds env l).trades[i]? with _ | t
    · simp
    · simp
  cases tg with
  | opening i =>
    constructor
    · rintro ⟨-, hi⟩
      exact ⟨i, of_decide_eq_true hi, mem_requestsOf.mpr (.inl rfl)⟩
    · rintro ⟨j, hj, hm⟩
      rcases mem_requestsOf.mp hm with h | ⟨k, -, h⟩ <;> cases h
      obtain ⟨p, pr, hp, hi⟩ := mem_providerBook.mp (hl i hj)
      exact ⟨⟨p, ((C76_openings hr).1 p pr hp i).mpr hi⟩, decide_eq_true hj⟩
  | closing i k =>
    constructor
    · rintro ⟨⟨p, hp⟩, hi⟩
      exact ⟨i, of_decide_eq_true hi, mem_requestsOf.mpr (.inr ⟨k, (hcl i k).mpr ((C76_closes h0 l).1 p i k hp), rfl⟩)⟩
    · rintro ⟨j, hj, hm⟩
      rcases mem_requestsOf.mp hm with h | ⟨k', hk, h⟩ <;> cases h
      obtain ⟨t, ht, hk'⟩ := (hcl i k).mp hk
      exact ⟨(C76_closes h0 l).2 hd i t ht k hk', decide_eq_true hj⟩

/-! ## The money of one trade -/

/-- The money the deals of a trade brought in. -/
def dealt (t : Trade) : ℚ :=
  Spec.sold t.dir t.openQty t.openValue + (t.closes.map (fun c => Spec.sold (Spec.contrary t.dir) c.qty c.closeValue)).sum

theorem requestsOf_cash {w : World} {i : ℕ} {t : Trade} (ht : w.trades[i]? = some t) : ((requestsOf w i).map (Spec.cash w)).sum = dealt t := by
  unfold requestsOf dealt closesOf
  rw [ht, List.map_cons, List.sum_cons, List.map_map]
  have h1 : Spec.cash w (.opening i) = Spec.sold t.dir t.openQty t.openValue := by
    simp only [Spec.cash, ht]
  have h2 : (List.range t.closes.length).map (Spec.cash w ∘ Target.closing i) =
      t.closes.map (fun c => Spec.sold (Spec.contrary t.dir) c.qty c.closeValue) := by
    refine List.ext_getElem (by simp) ?_
    intro k hk1 hk2
    simp only [List.getElem_map, List.getElem_range, Function.comp, Spec.cash, ht]
    rw [List.length_map] at hk2
    rw [List.getElem?_eq_getElem hk2]
  rw [h1, h2]

theorem flatMap_cash {w : World} {ids : List ℕ} (hl : ∀ i ∈ ids, ∃ t, w.trades[i]? = some t) :
    ((ids.flatMap (requestsOf w)).map (Spec.cash w)).sum = Spec.over w dealt ids := by
  unfold Spec.over
  induction ids with
  | nil => rfl
  | cons i ids ih =>
    obtain ⟨t, ht⟩ := hl i (by simp)
    rw [List.flatMap_cons, List.map_append, List.sum_append, ih (fun j hj => hl j (List.mem_cons_of_mem _ hj)), requestsOf_cash ht]
    simp only [List.filterMap_cons, ht, List.map_cons, List.sum_cons]

/-- The gain of a trade without any rounding. -/
theorem dealt_stock (t : Trade) : dealt t + Spec.stock t =
    (t.closes.map (fun c => c.qty * Spec.move t.dir t.openValue c.closeValue)).sum + t.openedQty * Spec.move t.dir t.openValue t.curClose := by
  have key : ∀ l : List TradeClose, (l.map (fun c => Spec.sold (Spec.contrary t.dir) c.qty c.closeValue)).sum =
      (l.map (fun c => c.qty * Spec.move t.dir t.openValue c.closeValue)).sum -
        Spec.sold t.dir (l.map TradeClose.qty).sum t.openValue := by
    intro l
    induction l with
    | nil => unfold Spec.sold; cases t.dir <;> simp
    | cons c l ih =>
      simp only [List.map_cons, List.sum_cons]
      rw [ih]
      unfold Spec.sold Spec.contrary Spec.move
      cases t.dir <;> simp only [] <;> push_cast <;> ring
  unfold dealt Spec.stock
  rw [key]
  unfold Trade.openedQty Trade.closedQty Spec.sold Spec.contrary Spec.move
  cases t.dir <;> simp only [] <;> push_cast <;> ring

theorem closes_exact (hE : Exact) (t : Trade) :
    t.closedResult = (t.closes.map (fun c => c.qty * cent (Spec.move t.dir t.openValue c.closeValue))).sum := by
  unfold Trade.closedResult
  rw [fsum_exact hE]
  exact congrArg List.sum (List.map_congr_left fun c _ => avg_exact hE _ _ c)

theorem result_inCents (hE : Exact) {t : Trade} (h : Spec.InCents t) : t.result = dealt t + Spec.stock t := by
  rw [dealt_stock, result_exact hE, closes_exact hE, cent_move h.1 h.2.1]
  congr 2
  exact List.map_congr_left fun c hc => by rw [cent_move h.1 (h.2.2 c hc)]

theorem sum_near {α : Type} (l : List α) (n : α → ℚ) (x y : α → ℚ) (hn : ∀ a ∈ l, 0 ≤ n a) (h : ∀ a ∈ l, |x a - y a| ≤ 1 / 200) :
    |(l.map (fun a => n a * x a)).sum - (l.map (fun a => n a * y a)).sum| ≤ (l.map n).sum / 200 := by
  induction l with
  | nil => simp
  | cons a l ih =>
    simp only [List.map_cons, List.sum_cons]
    have h1 := ih (fun b hb => hn b (List.mem_cons_of_mem _ hb)) (fun b hb => h b (List.mem_cons_of_mem _ hb))
    have h2 : |n a * x a - n a * y a| ≤ n a / 200 := by
      rw [← mul_sub, abs_mul, abs_of_nonneg (hn a (by simp))]
      have := mul_le_mul_of_nonneg_left (h a (by simp)) (hn a (by simp))
      linarith
    calc _ = |(n a * x a - n a * y a) + ((l.map (fun a => n a * x a)).sum - (l.map (fun a => n a * y a)).sum)| := by congr 1; ring
      _ ≤ _ := abs_add_le _ _
      _ ≤ _ := by linarith

theorem result_near (hE : Exact) {t : Trade} (h1 : 0 ≤ t.openedQty) (h2 : ∀ c ∈ t.closes, 0 ≤ c.qty) :
    |t.result - (dealt t + Spec.stock t)| ≤ t.openQty / 200 := by
  rw [dealt_stock, result_exact hE, closes_exact hE]
  have h3 := sum_near t.closes (fun c => (c.qty : ℚ)) (fun c => cent (Spec.move t.dir t.openValue c.closeValue))
    (fun c => Spec.move t.dir t.openValue c.closeValue) (fun c hc => by exact_mod_cast h2 c hc)
    (fun c _ => by rw [abs_sub_comm]; exact cent_abs _)
  have h4 : |(t.openedQty : ℚ) * cent (Spec.move t.dir t.openValue t.curClose) - t.openedQty * Spec.move t.dir t.openValue t.curClose| ≤
      t.openedQty / 200 := by
    have h0 : (0 : ℚ) ≤ t.openedQty := by exact_mod_cast h1
    rw [← mul_sub, abs_mul, abs_of_nonneg h0, abs_sub_comm]
    have := mul_le_mul_of_nonneg_left (cent_abs (Spec.move t.dir t.openValue t.curClose)) h0
    linarith
  have h5 : (t.openQty : ℚ) = (t.closes.map (fun c => (c.qty : ℚ))).sum + t.openedQty := by
    have hs : ∀ l : List TradeClose, (((l.map TradeClose.qty).sum : ℤ) : ℚ) = (l.map (fun c => (c.qty : ℚ))).sum := by
      intro l
      induction l with
      | nil => simp
      | cons c l ih => simp only [List.map_cons, List.sum_cons]; push_cast; rw [ih]
    unfold Trade.openedQty Trade.closedQty
    rw [Int.cast_sub, hs]
    ring
  rw [h5]
  have := abs_add_le ((t.closes.map (fun c => (c.qty : ℚ) * cent (Spec.move t.dir t.openValue c.closeValue))).sum -
    (t.closes.map (fun c => (c.qty : ℚ) * Spec.move t.dir t.openValue c.closeValue)).sum)
    ((t.openedQty : ℚ) * cent (Spec.move t.dir t.openValue t.curClose) - t.openedQty * Spec.move t.dir t.openValue t.curClose)
  calc _ = _ := by congr 1; ring
    _ ≤ _ := this
    _ ≤ _ := by linarith

/-! ## The theorems -/

/-- C109 as a statement about programs `ok`. -/
def Spec.C109 (ok : Env → List Cmd → Prop) : Prop := Exact → ∀ (env : Env) (w0 : World), w0.Init → ∀ l : List Cmd, ok env l →
  ∀ (s : ℕ) (st : Strategy), (w0.runCmds env l).strategies[s]? = some st →
  (∀ i ∈ st.trades, ∀ t, (w0.runCmds env l).trades[i]? = some t → Spec.InCents t) →
  strategyResult (st.trades.filterMap (fun i => (w0.runCmds env l).trades[i]?)) .none = Spec.balance (w0.runCmds env l) st.trades

theorem over_add (w : World) (f g : Trade → ℚ) (ids : List ℕ) : Spec.over w (fun t => f t + g t) ids = Spec.over w f ids + Spec.over w g ids := by
  unfold Spec.over
  exact List.sum_map_add

theorem over_congr {w : World} {f g : Trade → ℚ} {ids : List ℕ} (h : ∀ i ∈ ids, ∀ t, w.trades[i]? = some t → f t = g t) :
    Spec.over w f ids = Spec.over w g ids := by
  unfold Spec.over
  refine congrArg List.sum (List.map_congr_left fun t ht => ?_)
  obtain ⟨i, hi, ht⟩ := List.mem_filterMap.mp ht
  exact h i hi t ht

/-- The balance of listed trades. -/
theorem balance_eq {env : Env} {w0 : World} (h0 : w0.Init) {l : List Cmd} (hd : Spec.NoDirectClose env l) {ids : List ℕ} (hn : ids.Nodup)
    (hl : ∀ i ∈ ids, i ∈ Spec.providerBook (w0.runCmds env l)) :
    Spec.balance (w0.runCmds env l) ids = Spec.over (w0.runCmds env l) (fun t => dealt t + Spec.stock t) ids := by
  have hr : Reachable env (w0.runCmds env l) := ⟨w0, h0, l, rfl⟩
  unfold Spec.balance
  rw [((statement_perm h0 l hd hn hl).map _).sum_eq, flatMap_cash (fun i hi => hr.regInv.trade_of_listed (hl i hi)), over_add]

theorem strat_listed {env : Env} {w : World} (hw : Reachable env w) {s : ℕ} {st : Strategy} (hst : w.strategies[s]? = some st) :
    st.trades.Nodup ∧ ∀ i ∈ st.trades, i ∈ Spec.providerBook w := by
  have h := hw.regInv
  refine ⟨(h.stratInc s st hst).imp (fun hab => by omega), fun i hi => ?_⟩
  exact mem_providerBook.mpr ((h.stratOf i _ s st (List.getElem?_eq_getElem (h.stratLt s st hst i hi)) hst).mp hi).2

/-- C109 (exact arithmetic, prices in whole cents, programs that close through the API objects): the result of a strategy is the money brought in by what
the providers were asked to do with its trades, plus what the units still held would bring in. -/
theorem C109_account : Spec.C109 Spec.NoDirectClose := by
  intro hE env w0 h0 l hd s st hst hc
  obtain ⟨hn, hl⟩ := strat_listed ⟨w0, h0, l, rfl⟩ hst
  rw [strategyResult_total hE, balance_eq h0 hd hn hl]
  exact over_congr fun i hi t ht => result_inCents hE (hc i hi t ht)

/-- C109: a strategy without open units has the money its requests brought in. -/
theorem C109_flat (hE : Exact) {env : Env} {w0 : World} (h0 : w0.Init) {l : List Cmd} (hd : Spec.NoDirectClose env l) {s : ℕ} {st : Strategy}
    (hst : (w0.runCmds env l).strategies[s]? = some st)
    (hc : ∀ i ∈ st.trades, ∀ t, (w0.runCmds env l).trades[i]? = some t → Spec.InCents t ∧ (t.closes.map TradeClose.qty).sum = t.openQty) :
    strategyResult (st.trades.filterMap (fun i => (w0.runCmds env l).trades[i]?)) .none =
      (((Spec.statement (w0.runCmds env l)).filter (Spec.concerns st.trades)).map (Spec.cash (w0.runCmds env l))).sum := by
  rw [C109_account hE env w0 h0 l hd s st hst (fun i hi t ht => (hc i hi t ht).1)]
  unfold Spec.balance
  rw [over_congr (g := fun _ => 0) (fun i hi t ht => ?_)]
  · unfold Spec.over
    simp
  · unfold Spec.stock
    rw [(hc i hi t ht).2, sub_self]
    unfold Spec.sold
    cases Spec.contrary t.dir <;> simp

theorem over_near {w : World} {f g b : Trade → ℚ} {ids : List ℕ} (h : ∀ i ∈ ids, ∀ t, w.trades[i]? = some t → |f t - g t| ≤ b t) :
    |Spec.over w f ids - Spec.over w g ids| ≤ Spec.over w b ids := by
  unfold Spec.over
  have h' : ∀ t ∈ ids.filterMap (fun i => w.trades[i]?), |f t - g t| ≤ b t := by
    intro t ht
    obtain ⟨i, hi, ht⟩ := List.mem_filterMap.mp ht
    exact h i hi t ht
  generalize ids.filterMap (fun i => w.trades[i]?) = L at h'
  induction L with
  | nil => simp
  | cons t L ih =>
    simp only [List.map_cons, List.sum_cons]
    have h1 := ih (fun u hu => h' u (List.mem_cons_of_mem _ hu))
    have h2 := h' t (by simp)
    calc _ = |(f t - g t) + ((L.map f).sum - (L.map g).sum)| := by congr 1; ring
      _ ≤ _ := abs_add_le _ _
      _ ≤ _ := by linarith

theorem Spec.Delegates.noDirectClose {env : Env} {l : List Cmd} (h : Spec.Delegates env l) : Spec.NoDirectClose env l :=
  ⟨fun s cb e w => prog_all_imp (fun _ ho => ho.1.notDirect) _ (h.callbacks s cb e w), fun _ _ _ _ hm => (h.ops _ hm).1⟩

/-- C109 for all prices (exact arithmetic, no negative quantities): the result of a strategy differs from its account by at most half a cent for every unit
it opened. -/
theorem C109_near (hE : Exact) {env : Env} {w0 : World} (h0 : w0.Init) {l : List Cmd} (hd : Spec.Delegates env l) {s : ℕ} {st : Strategy}
    (hst : (w0.runCmds env l).strategies[s]? = some st) :
    |strategyResult (st.trades.filterMap (fun i => (w0.runCmds env l).trades[i]?)) .none - Spec.balance (w0.runCmds env l) st.trades| ≤
      Spec.over (w0.runCmds env l) (fun t => (t.openQty : ℚ)) st.trades / 200 := by
  obtain ⟨hn, hl⟩ := strat_listed ⟨w0, h0, l, rfl⟩ hst
  have hv : Spec.ValidRun env (w0.runCmds env l) := ⟨w0, h0, hd.env_valid, l, hd.cmd_valid, rfl⟩
  rw [strategyResult_total hE, balance_eq h0 hd.noDirectClose hn hl]
  have h1 : Spec.over (w0.runCmds env l) (fun t => (t.openQty : ℚ)) st.trades / 200 =
      Spec.over (w0.runCmds env l) (fun t => (t.openQty : ℚ) / 200) st.trades := by
    unfold Spec.over
    generalize st.trades.filterMap (fun i => (w0.runCmds env l).trades[i]?) = L
    induction L with
    | nil => simp
    | cons t L ih =>
      simp only [List.map_cons, List.sum_cons]
      rw [add_div, ih]
  rw [h1]
  refine over_near fun i _ t ht => ?_
  obtain ⟨h2, h3, h4⟩ := hv.quantities t (List.mem_of_getElem? ht)
  exact result_near hE h2 h4

/-- C109, all together: the results of all trades ever opened add up to the money brought in by all requests about listed trades plus the worth of what is
held. -/
theorem C109_all (hE : Exact) {env : Env} {w0 : World} (h0 : w0.Init) {l : List Cmd} (hd : Spec.Delegates env l)
    (hc : ∀ t ∈ (w0.runCmds env l).trades, Spec.InCents t) :
    ((w0.runCmds env l).trades.map Trade.result).sum = Spec.balance (w0.runCmds env l) (Spec.providerBook (w0.runCmds env l)) := by
  have hr : Reachable env (w0.runCmds env l) := ⟨w0, h0, l, rfl⟩
  have hv : Spec.ValidRun env (w0.runCmds env l) := ⟨w0, h0, hd.env_valid, l, hd.cmd_valid, rfl⟩
  rw [(C78_complete hv).2, balance_eq h0 hd.noDirectClose hr.regInv.providerBook_nodup (fun i hi => hi)]
  exact over_congr fun i _ t ht => result_inCents hE (hc t (List.mem_of_getElem? ht))

end

/-! ## Concrete cases -/

/-- Two providers; the strategy holds the rest of the second sell on one epic and the buy on the other: the requests brought in -44, what is held would
bring in 28. -/
example : letI := Arith.exact
    let w := Demo.twoBrokers.runCmds Demo.quiet (Demo.orders.take 7)
    (Spec.statement w, (Spec.statement w).map (Spec.cash w), (Spec.tradesOf w 0).map Spec.stock, strategyResult (Spec.tradesOf w 0) .none) =
      ([.opening 0, .closing 0 0, .closing 0 1, .opening 3, .opening 1], [-60, 20, 30, 10, -44], [0, 40, -12], -16) := by
  letI := Arith.exact
  decide +kernel

/-- Everything closed: the money of the requests is the result. -/
example : letI := Arith.exact
    let w := Demo.twoBrokers.runCmds Demo.quiet Demo.orders
    ((Spec.statement w).map (Spec.cash w), strategyResult (Spec.tradesOf w 0) .none) = ([-60, 20, 30, 10, -12, -44, 40], -16) := by
  letI := Arith.exact
  decide +kernel

/-- Prices between cents: the account says -9.948, the result, with each move rounded, -9.96; they differ by less than half a cent for each of the four units. -/
example : letI := Arith.exact
    let w := Demo.twoBrokers.runCmds Demo.quiet [.tick 0 (Demo.tk 480 10 (12487 / 1000)), .op (.openTrade 0 (some 0) (some .buy) 4)]
    (strategyResult (Spec.tradesOf w 0) .none, (Spec.statement w).map (Spec.cash w), (Spec.tradesOf w 0).map Spec.stock) =
      (-996 / 100, [-49948 / 1000], [40]) := by
  letI := Arith.exact
  decide +kernel

/-- A trade opened through its epic and closed by `trade.close`. -/
def Demo.untold : List Cmd :=
  [.tick 0 (Demo.tk 480 10 12), .op (.openTrade 0 (some 0) (some .buy) 5), .op (.close 0 100 (Demo.tk 480 10 12).dt none)]

/-- C109 fails for programs that call `trade.close` themselves: no provider is told. -/
theorem C109_direct_false : ¬ @Spec.C109 Arith.exact (fun _ _ => True) := by
  letI := Arith.exact
  intro h
  have h1 := h (fun _ => rfl) Demo.quiet Demo.twoBrokers Demo.twoBrokers_init Demo.untold trivial 0 _ (List.getElem?_eq_getElem (by decide +kernel))
  refine absurd (h1 ?_) (by decide +kernel)
  have h2 : ∀ t ∈ (@World.runCmds Arith.exact Demo.quiet Demo.twoBrokers Demo.untold).trades,
      t.openValue = 12 ∧ t.curClose = 10 ∧ ∀ c ∈ t.closes, c.closeValue = 100 := by decide +kernel
  intro i _ t ht
  obtain ⟨a, b, c⟩ := h2 t (List.mem_of_getElem? ht)
  exact ⟨⟨1200, by rw [a]; norm_num⟩, ⟨1000, by rw [b]; norm_num⟩, fun x hx => ⟨10000, by rw [c x hx]; norm_num⟩⟩

end Estrade
