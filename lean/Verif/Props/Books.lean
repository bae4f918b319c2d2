import Verif.Lemmas.Registry
import Verif.Lemmas.PerTrade
import Verif.Props.Scaling
import Verif.Props.Portfolio
import Verif.Props.Requests
import Verif.Demo

/-!
# C78: the books of strategies and providers agree
-/

set_option autoImplicit false
set_option linter.style.haveILetI false
set_option linter.unusedSectionVars false

namespace Estrade

/-- Spec: all trades the providers list. -/
def Spec.providerBook (w : World) : List ℕ := w.providers.flatMap Provider.trades

/-- Spec: all trades the strategies list. -/
def Spec.strategyBook (w : World) : List ℕ := w.strategies.flatMap Strategy.trades

/-- Spec: trade `i` was opened without a strategy. -/
def Spec.unowned (w : World) (i : ℕ) : Bool := match w.trades[i]? with
  | none => false
  | some t => t.strategy.isNone

/-- Spec: the total of a quantity over a book. -/
def Spec.over (w : World) (f : Trade → ℚ) (l : List ℕ) : ℚ := ((l.filterMap (fun i => w.trades[i]?)).map f).sum

section
variable [Arith]

theorem nodup_flatMap {α : Type} {f : α → List ℕ} {l : List α} (h1 : ∀ (p : ℕ) x, l[p]? = some x → (f x).Nodup)
    (h2 : ∀ (p p' : ℕ) x x' (i : ℕ), l[p]? = some x → l[p']? = some x' → i ∈ f x → i ∈ f x' → p = p') :
    (l.flatMap f).Nodup := by
  induction l with
  | nil => exact List.nodup_nil
  | cons a l ih =>
    rw [List.flatMap_cons]
    refine List.Nodup.append (h1 0 a rfl) (ih (fun p x hx => h1 (p + 1) x hx) ?_) ?_
    · intro p p' x x' i hx hx' hi hi'
      have := h2 (p + 1) (p' + 1) x x' i hx hx' hi hi'
      omega
    · intro i hi hi'
      obtain ⟨x, hx, hm⟩ := List.mem_flatMap.mp hi'
      obtain ⟨p, hp⟩ := List.mem_iff_getElem?.mp hx
      have := h2 0 (p + 1) a x i rfl hp hi hm
      omega

theorem mem_providerBook {w : World} {i : ℕ} :
    i ∈ Spec.providerBook w ↔ ∃ (p : ℕ) (pr : Provider), w.providers[p]? = some pr ∧ i ∈ pr.trades := by
  unfold Spec.providerBook
  rw [List.mem_flatMap]
  constructor
  · rintro ⟨pr, h, hi⟩
    obtain ⟨p, hp⟩ := List.mem_iff_getElem?.mp h
    exact ⟨p, pr, hp, hi⟩
  · rintro ⟨p, pr, h, hi⟩
    exact ⟨pr, List.mem_of_getElem? h, hi⟩

theorem mem_strategyBook {w : World} {i : ℕ} :
    i ∈ Spec.strategyBook w ↔ ∃ (s : ℕ) (st : Strategy), w.strategies[s]? = some st ∧ i ∈ st.trades := by
  unfold Spec.strategyBook
  rw [List.mem_flatMap]
  constructor
  · rintro ⟨st, h, hi⟩
    obtain ⟨s, hs⟩ := List.mem_iff_getElem?.mp h
    exact ⟨s, st, hs, hi⟩
  · rintro ⟨s, st, h, hi⟩
    exact ⟨st, List.mem_of_getElem? h, hi⟩

theorem RegInv.trade_of_listed {w : World} (h : RegInv w) {i : ℕ} (hi : i ∈ Spec.providerBook w) :
    ∃ t, w.trades[i]? = some t := by
  obtain ⟨p, pr, hp, hm⟩ := mem_providerBook.mp hi
  exact ⟨_, List.getElem?_eq_getElem (h.provLt p pr hp i hm)⟩

theorem RegInv.providerBook_nodup {w : World} (h : RegInv w) : (Spec.providerBook w).Nodup := by
  refine nodup_flatMap (fun p x hx => (h.provInc p x hx).imp (fun hab => by omega)) ?_
  intro p p' x x' i hx hx' hi hi'
  obtain ⟨t, ht⟩ := h.trade_of_listed (mem_providerBook.mpr ⟨p, x, hx, hi⟩)
  have h1 := h.provOf i t p x ht hx hi
  have h2 := h.provOf i t p' x' ht hx' hi'
  rw [h1] at h2
  injection h2

theorem RegInv.strategyBook_nodup {w : World} (h : RegInv w) : (Spec.strategyBook w).Nodup := by
  refine nodup_flatMap (fun p x hx => (h.stratInc p x hx).imp (fun hab => by omega)) ?_
  intro s s' x x' i hx hx' hi hi'
  have ht := List.getElem?_eq_getElem (h.stratLt s x hx i hi)
  have h1 := ((h.stratOf i _ s x ht hx).mp hi).1
  have h2 := ((h.stratOf i _ s' x' ht hx').mp hi').1
  rw [h1] at h2
  injection h2

/-- C78: the trades listed by providers are, each exactly once, those listed by strategies and those opened without a
strategy. -/
theorem C78_books {env : Env} {w : World} (hw : Reachable env w) :
    (Spec.providerBook w).Nodup ∧
    (Spec.providerBook w).Perm (Spec.strategyBook w ++ (Spec.providerBook w).filter (Spec.unowned w)) := by
  have h := hw.regInv
  refine ⟨h.providerBook_nodup, ?_⟩
  have hd : List.Disjoint (Spec.strategyBook w) ((Spec.providerBook w).filter (Spec.unowned w)) := by
    intro i hi hi'
    obtain ⟨s, st, hs, hm⟩ := mem_strategyBook.mp hi
    have ht := List.getElem?_eq_getElem (h.stratLt s st hs i hm)
    have h1 := ((h.stratOf i _ s st ht hs).mp hm).1
    have h2 := (List.mem_filter.mp hi').2
    unfold Spec.unowned at h2
    rw [ht] at h2
    simp only [h1] at h2
    cases h2
  rw [List.perm_ext_iff_of_nodup h.providerBook_nodup
    (List.Nodup.append h.strategyBook_nodup (h.providerBook_nodup.filter _) hd)]
  intro i
  rw [List.mem_append, List.mem_filter]
  constructor
  · intro hi
    obtain ⟨t, ht⟩ := h.trade_of_listed hi
    rcases hst : t.strategy with _ | s
    · right
      refine ⟨hi, ?_⟩
      unfold Spec.unowned
      rw [ht]; simp [hst]
    · left
      have hlt := h.stratOk i t ht s hst
      exact mem_strategyBook.mpr ⟨s, _, List.getElem?_eq_getElem hlt,
        (h.stratOf i t s _ ht (List.getElem?_eq_getElem hlt)).mpr ⟨hst, mem_providerBook.mp hi⟩⟩
  · rintro (hi | hi)
    · obtain ⟨s, st, hs, hm⟩ := mem_strategyBook.mp hi
      have ht := List.getElem?_eq_getElem (h.stratLt s st hs i hm)
      exact mem_providerBook.mpr ((h.stratOf i _ s st ht hs).mp hm).2
    · exact hi.1

theorem over_append (w : World) (f : Trade → ℚ) (a b : List ℕ) :
    Spec.over w f (a ++ b) = Spec.over w f a + Spec.over w f b := by
  unfold Spec.over
  rw [List.filterMap_append, List.map_append, List.sum_append]

theorem over_perm (w : World) (f : Trade → ℚ) {a b : List ℕ} (h : a.Perm b) : Spec.over w f a = Spec.over w f b :=
  ((h.filterMap _).map _).sum_eq

/-- C78, totals: every total over the providers' trades (results, open quantities, ...) is the total over the strategies'
trades plus that of the trades without a strategy. -/
theorem C78_totals {env : Env} {w : World} (hw : Reachable env w) (f : Trade → ℚ) :
    Spec.over w f (Spec.providerBook w) =
      Spec.over w f (Spec.strategyBook w) + Spec.over w f ((Spec.providerBook w).filter (Spec.unowned w)) := by
  rw [← over_append]
  exact over_perm w f (C78_books hw).2

theorem filterMap_range {α : Type} (l : List α) : (List.range l.length).filterMap (fun i => l[i]?) = l := by
  induction l using List.reverseRecOn with
  | nil => rfl
  | append_singleton l a ih =>
    rw [List.length_append, List.length_singleton, List.range_succ, List.filterMap_append]
    have : (List.range l.length).filterMap (fun i => (l ++ [a])[i]?) = (List.range l.length).filterMap (fun i => l[i]?) :=
      List.filterMap_congr fun i hi => List.getElem?_append_left (List.mem_range.mp hi)
    rw [this, ih]
    simp

theorem result_of_empty (t : Trade) (h1 : t.openedQty = 0) (h2 : ∀ c ∈ t.closes, c.qty = 0) : t.result = 0 := by
  have hc : t.closes.map (closeResult t.dir t.openValue) = t.closes.map (fun _ => (0 : ℚ)) := by
    refine List.map_congr_left fun c hc => ?_
    unfold closeResult
    rw [h2 c hc]
    simp [fmul_zero_right, rnd_zero]
  have hs : ∀ l : List TradeClose, (l.map (fun _ => (0 : ℚ))).foldl fadd 0 = 0 := by
    intro l
    induction l with
    | nil => rfl
    | cons a l ih =>
      rw [List.map_cons, List.foldl_cons]
      unfold fadd at ih ⊢
      rw [add_zero, fl_zero]; exact ih
  unfold Trade.result Trade.openedResult Trade.closedResult
  rw [h1, hc]
  unfold fsum
  rw [hs]
  simp [fmul_zero_right, fadd, fl_zero]

/-- C78, nothing is missing (no negative quantities): the total result of all trades ever opened is that of the trades
the providers list; the others were netted away completely and have result 0. -/
theorem C78_complete {env : Env} {w : World} (hw : Spec.ValidRun env w) :
    (∀ (i : ℕ) t, w.trades[i]? = some t → i ∉ Spec.providerBook w → t.openQty = 0 ∧ t.result = 0) ∧
    (w.trades.map Trade.result).sum = Spec.over w Trade.result (Spec.providerBook w) := by
  have h := hw.reachable.regInv
  have h0 : ∀ (i : ℕ) t, w.trades[i]? = some t → i ∉ Spec.providerBook w → t.openQty = 0 ∧ t.result = 0 := by
    intro i t ht hi
    obtain ⟨h1, h2, h3⟩ := hw.quantities t (List.mem_of_getElem? ht)
    have hn : ¬ 0 < t.openQty := fun hq => hi (mem_providerBook.mpr (h.listed i t ht hq))
    have h4 : t.closedQty = 0 ∧ t.openQty = 0 := by
      unfold Trade.openedQty at h1
      omega
    refine ⟨h4.2, result_of_empty t (by unfold Trade.openedQty; omega) ?_⟩
    intro c hc
    have h5 := h4.1
    unfold Trade.closedQty at h5
    have h6 : c.qty ≤ (t.closes.map TradeClose.qty).sum :=
      List.single_le_sum (by
        intro x hx
        obtain ⟨c', hc', rfl⟩ := List.mem_map.mp hx
        exact h3 c' hc') _ (List.mem_map_of_mem hc)
    have := h3 c hc
    omega
  refine ⟨h0, ?_⟩
  have h1 : (w.trades.map Trade.result).sum = Spec.over w Trade.result (List.range w.trades.length) := by
    unfold Spec.over
    congr 2
    exact (filterMap_range w.trades).symm
  have h2 : (List.range w.trades.length).Perm
      (Spec.providerBook w ++ (List.range w.trades.length).filter (fun i => !decide (i ∈ Spec.providerBook w))) := by
    rw [List.perm_ext_iff_of_nodup List.nodup_range]
    · intro i
      simp only [List.mem_append, List.mem_filter, List.mem_range, Bool.not_eq_true', decide_eq_false_iff_not]
      constructor
      · intro hi
        by_cases hm : i ∈ Spec.providerBook w
        · exact .inl hm
        · exact .inr ⟨hi, hm⟩
      · rintro (hm | hm)
        · obtain ⟨t, ht⟩ := h.trade_of_listed hm
          exact getElem?_lt ht
        · exact hm.1
    · refine List.Nodup.append h.providerBook_nodup (List.nodup_range.filter _) ?_
      intro i hi hi'
      simp only [List.mem_filter, Bool.not_eq_true', decide_eq_false_iff_not] at hi'
      exact hi'.2 hi
  rw [h1, over_perm w _ h2, over_append]
  have h3 : Spec.over w Trade.result
      ((List.range w.trades.length).filter (fun i => !decide (i ∈ Spec.providerBook w))) = 0 := by
    unfold Spec.over
    refine List.sum_eq_zero fun x hx => ?_
    obtain ⟨t, ht, rfl⟩ := List.mem_map.mp hx
    obtain ⟨i, hi, ht⟩ := List.mem_filterMap.mp ht
    simp only [List.mem_filter, Bool.not_eq_true', decide_eq_false_iff_not] at hi
    exact (h0 i t ht hi.2).2
  rw [h3, add_zero]

/-- C78, results (exact arithmetic): the results of the strategies and of the trades without a strategy add up to the
total of the providers' trades. -/
theorem C78_strategy_results (hE : Exact) {env : Env} {w : World} (hw : Reachable env w) :
    ((List.range w.strategies.length).map (fun s => strategyResult (Spec.tradesOf w s) .none)).sum +
      Spec.over w Trade.result ((Spec.providerBook w).filter (Spec.unowned w)) =
    Spec.over w Trade.result (Spec.providerBook w) := by
  rw [C78_totals hw Trade.result]
  congr 1
  have h1 : ∀ L : List Trade, strategyResult L .none = (L.map Trade.result).sum := by
    intro L
    unfold strategyResult TradesArg.resolve
    simp only
    rw [rnd_exact hE, foldl_fadd_exact hE, zero_add]
    refine IsCent.cent (isCent_sum fun x hx => ?_)
    obtain ⟨t, _, rfl⟩ := List.mem_map.mp hx
    exact isCent_result hE t
  simp only [h1]
  have h2 : ∀ L : List Strategy, (∀ (s : ℕ) st, L[s]? = some st → w.strategies[s]? = some st) →
      ((List.range L.length).map (fun s => ((Spec.tradesOf w s).map Trade.result).sum)).sum =
        Spec.over w Trade.result (L.flatMap Strategy.trades) := by
    intro L
    induction L using List.reverseRecOn with
    | nil => intro _; rfl
    | append_singleton L st ih =>
      intro hL
      rw [List.length_append, List.length_singleton, List.range_succ, List.map_append, List.sum_append,
        ih (fun s st' hs => hL s st' (by rw [List.getElem?_append_left (getElem?_lt hs)]; exact hs)),
        List.flatMap_append, over_append]
      congr 1
      have := hL L.length st (by simp)
      simp only [List.map_cons, List.map_nil, List.sum_singleton, List.flatMap_singleton]
      unfold Spec.tradesOf Spec.over
      rw [this]
  exact h2 w.strategies (fun _ _ h => h)

end

/-! ## Concrete cases -/

namespace Demo

/-- Trades of both strategies and of none, with two brokers; the last order nets one away. -/
def mixed : List Cmd := [.tick 0 (tk 480 10 12), .tick 1 (tk 480 20 21),
  .op (.openTrade 0 (some 0) (some .buy) 5), .op (.openTrade 1 (some 1) (some .buy) 3), .op (.openTrade 1 none (some .sell) 2),
  .op (.openTrade 0 none (some .buy) 1), .tick 0 (tk 481 14 16), .tick 1 (tk 481 30 31),
  .op (.openTrade 0 (some 1) (some .sell) 4)]

end Demo

/-- C78 with one broker: trade 3 is netted away by the sell 2 and listed nowhere; 2 has no strategy. -/
example : letI := Arith.exact
    let w := Demo.world.runCmds Demo.quiet Demo.mixed
    Spec.providerBook w = [0, 1, 2, 4] ∧ w.strategies.map Strategy.trades = [[0], [1, 4]] ∧
    (Spec.providerBook w).filter (Spec.unowned w) = [2] ∧ w.trades.map Trade.openQty = [5, 3, 2, 0, 1] := by
  letI := Arith.exact
  decide +kernel

example : letI := Arith.exact
    let w := Demo.world.runCmds Demo.quiet Demo.mixed
    w.trades.map Trade.result = [90, 27, -12, 0, -2] ∧ Spec.over w Trade.result (Spec.providerBook w) = 103 ∧
    strategyResult (Spec.tradesOf w 0) .none = 90 ∧ strategyResult (Spec.tradesOf w 1) .none = 25 := by
  letI := Arith.exact
  decide +kernel

/-- C78 with two brokers. -/
example : letI := Arith.exact
    let w := Demo.twoBrokers.runCmds Demo.quiet Demo.mixed
    w.providers.map Provider.trades = [[0, 2], [1]] ∧ w.strategies.map Strategy.trades = [[0]] ∧
    (Spec.providerBook w).filter (Spec.unowned w) = [2, 1] := by
  letI := Arith.exact
  decide +kernel

example : letI := Arith.exact
    Spec.ValidRun Demo.quiet (Demo.world.runCmds Demo.quiet Demo.mixed) := by
  letI := Arith.exact
  refine ⟨_, Demo.world_init, fun _ _ _ _ => trivial, _, ?_, rfl⟩
  simp [Demo.mixed, Cmd.Valid, Op.Valid]

end Estrade
