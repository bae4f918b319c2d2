import Verif.Lemmas.TradeLemmas
import Verif.Float64

/-!
# C22 - C28: a single trade (estrade/trade.py)
-/

set_option linter.style.haveILetI false
set_option linter.unusedSectionVars false
set_option autoImplicit false

namespace Estrade

/-! ## Histories of a trade -/

/-- Spec: a public call on a trade. -/
inductive Spec.TradeOp
  | update (v : ℚ)
  | tick (k : Tick)
  | close (v : ℚ) (dt : DT) (q : Option ℤ)
  | closeTick (k : Tick) (q : Option ℤ)

/-- Spec: the quantity asked for, if the call is a close. -/
def Spec.TradeOp.request : Spec.TradeOp → Option (Option ℤ)
  | .close _ _ q => some q
  | .closeTick _ q => some q
  | _ => none

/-- Spec: the quantity asked for is omitted or not negative. -/
def Spec.TradeOp.Valid (o : Spec.TradeOp) : Prop := ∀ n, o.request = some (some n) → 0 ≤ n

/-- Spec: the call is an update or a close through a tick, not a close at a price of its own. -/
def Spec.TradeOp.Quoted : Spec.TradeOp → Prop
  | .close _ _ _ => False
  | _ => True

section
variable [Arith]

/-- The calls of the model. -/
def Spec.TradeOp.run (t : Trade) : Spec.TradeOp → Trade
  | .update v => t.update v
  | .tick k => t.updateFromTick k
  | .close v dt q => t.close v dt q
  | .closeTick k q => t.closeFromTick k q

/-- The trade after a list of calls. -/
def Trade.after (t : Trade) (ops : List Spec.TradeOp) : Trade := ops.foldl Spec.TradeOp.run t

theorem Trade.after_append (t : Trade) (a b : List Spec.TradeOp) :
    t.after (a ++ b) = (t.after a).after b := List.foldl_append ..

theorem Trade.after_concat (t : Trade) (a : List Spec.TradeOp) (o : Spec.TradeOp) :
    t.after (a ++ [o]) = o.run (t.after a) := by rw [Trade.after_append]; rfl

end

/-- Spec: what a ledger with `Q` units gives for a list of requests. -/
def Spec.ledger (Q : ℤ) : List (Option ℤ) → List ℤ
  | [] => []
  | r :: rs =>
    let n := match r with
      | none => Q
      | some n => if n = 0 then Q else min n Q
    n :: Spec.ledger (Q - n) rs

/-- Spec: gain per unit of moving from `o` to `v`. -/
def Spec.move (d : Dir) (o v : ℚ) : ℚ :=
  match d with
  | .buy => v - o
  | .sell => o - v

/-- Spec: the quote at which a position is closed. -/
def Spec.exitQuote (d : Dir) (k : Tick) : ℚ :=
  match d with
  | .buy => k.bid
  | .sell => k.ask

/-- Spec: the quote at which a position is opened. -/
def Spec.entryQuote (d : Dir) (k : Tick) : ℚ :=
  match d with
  | .buy => k.ask
  | .sell => k.bid

/-- Spec: a bookkeeper's account: units left, cash realised, last price. -/
structure Spec.Account where
  units : ℤ
  cash : ℚ
  price : ℚ
  deriving DecidableEq

/-- Spec: sell `r` units (all of them when omitted or 0, never more than there are) at `v`. -/
def Spec.Account.sell (d : Dir) (o : ℚ) (a : Spec.Account) (v : ℚ) (r : Option ℤ) : Spec.Account :=
  let n := match r with
    | none => a.units
    | some n => if n = 0 then a.units else min n a.units
  { a with units := a.units - n, cash := a.cash + n * cent (Spec.move d o v) }

/-- Spec: the last price moves while units are left. -/
def Spec.Account.quote (a : Spec.Account) (v : ℚ) : Spec.Account :=
  if a.units = 0 then a else { a with price := v }

/-- Spec: effect of a call on the account. -/
def Spec.Account.step (d : Dir) (o : ℚ) (a : Spec.Account) : Spec.TradeOp → Spec.Account
  | .update v => a.quote v
  | .tick k => a.quote (Spec.exitQuote d k)
  | .close v _ q => a.sell d o v q
  | .closeTick k q =>
    let b := a.quote (Spec.exitQuote d k)
    b.sell d o b.price q

/-- Spec: cash plus the value of the units left at the last price. -/
def Spec.Account.worth (d : Dir) (o : ℚ) (a : Spec.Account) : ℚ :=
  a.cash + a.units * cent (Spec.move d o a.price)

section
variable [Arith]

/-! ## C22 -/

theorem run_openQty (t : Trade) (o : Spec.TradeOp) : (o.run t).openQty = t.openQty := by
  cases o <;> simp [Spec.TradeOp.run, Trade.updateFromTick, Trade.closeFromTick]

theorem after_openQty (t : Trade) (ops : List Spec.TradeOp) : (t.after ops).openQty = t.openQty := by
  induction ops using List.reverseRecOn with
  | nil => rfl
  | append_singleton ops o ih => rw [Trade.after_concat, run_openQty, ih]

/-- What a call does to the quantities. -/
theorem run_quantities (t : Trade) (o : Spec.TradeOp) :
    (o.run t).closes.map TradeClose.qty = t.closes.map TradeClose.qty ++
      (match o.request with | none => [] | some r => [t.closeQty r]) := by
  cases o <;>
    simp [Spec.TradeOp.run, Spec.TradeOp.request, Trade.updateFromTick, Trade.closeFromTick, Trade.close]

theorem run_openedQty (t : Trade) (o : Spec.TradeOp) :
    (o.run t).openedQty = t.openedQty - (match o.request with | none => 0 | some r => t.closeQty r) := by
  have h := run_quantities t o
  unfold Trade.openedQty Trade.closedQty
  rw [run_openQty, h]
  rcases o.request with _ | r <;> simp; ring

theorem closeQty_ledger (t : Trade) (r : Option ℤ) :
    t.closeQty r = match r with
      | none => t.openedQty
      | some n => if n = 0 then t.openedQty else min n t.openedQty := by
  rcases r with _ | n
  · exact t.closeQty_none
  · by_cases h : n = 0
    · subst h; simp [t.closeQty_zero]
    · simp [h, t.closeQty_of_ne h]

theorem after_ledger (t : Trade) (ops : List Spec.TradeOp) :
    (t.after ops).closes.map TradeClose.qty =
      t.closes.map TradeClose.qty ++ Spec.ledger t.openedQty (ops.filterMap Spec.TradeOp.request) := by
  induction ops generalizing t with
  | nil => simp [Trade.after, Spec.ledger]
  | cons o ops ih =>
    have e : t.after (o :: ops) = (o.run t).after ops := rfl
    rw [e, ih, run_quantities, run_openedQty, List.filterMap_cons]
    rcases o.request with _ | r
    · simp
    · simp only [Spec.ledger, ← closeQty_ledger, List.append_assoc, List.singleton_append]

theorem after_bounds (t : Trade) (h0 : 0 ≤ t.openedQty) (ops : List Spec.TradeOp)
    (hv : ∀ o ∈ ops, o.Valid) :
    0 ≤ (t.after ops).openedQty ∧ (t.after ops).openedQty ≤ t.openedQty := by
  induction ops using List.reverseRecOn with
  | nil => exact ⟨h0, le_refl _⟩
  | append_singleton ops o ih =>
    obtain ⟨i1, i2⟩ := ih (fun o ho => hv o (by simp [ho]))
    rw [Trade.after_concat, run_openedQty]
    have hvo := hv o (by simp)
    rcases hr : o.request with _ | r
    · simpa using ⟨i1, i2⟩
    · have := Trade.closeQty_bounds i1 (q := r) (fun n hn => hvo n (by rw [hr, hn]))
      dsimp only
      omega

/-- C22: the closes of a trade are those of a ledger with `Q` units, whatever the updates in between. -/
theorem C22_closes_are_a_ledger (d : Dir) (Q : ℤ) (o : ℚ) (dt : DT) (e : ℕ) (c : Option ℚ)
    (s : Option ℕ) (st : Status) (ops : List Spec.TradeOp) :
    ((Trade.new d Q o dt e c s st).after ops).closes.map TradeClose.qty =
      Spec.ledger Q (ops.filterMap Spec.TradeOp.request) := by
  have h := after_ledger (Trade.new d Q o dt e c s st) ops
  simpa [Trade.new, Trade.openedQty, Trade.closedQty] using h

/-- C22: quantities add up, never go below 0, no close is larger than what was open, and `closed` means
nothing is left. -/
theorem C22_quantities_add_up (d : Dir) (Q : ℤ) (hQ : 0 ≤ Q) (o : ℚ) (dt : DT) (e : ℕ) (c : Option ℚ)
    (s : Option ℕ) (st : Status) (ops : List Spec.TradeOp) (hv : ∀ o ∈ ops, o.Valid) :
    let t := (Trade.new d Q o dt e c s st).after ops
    0 ≤ t.openedQty ∧ t.openedQty ≤ Q ∧ t.closedQty + t.openedQty = Q ∧ t.openQty = Q ∧
      (t.closed = true ↔ t.closedQty = Q) ∧
      (∀ l c' r, t.closes = l ++ c' :: r → 0 ≤ c'.qty ∧ (l.map TradeClose.qty).sum + c'.qty ≤ Q) := by
  intro t
  have h0 : (Trade.new d Q o dt e c s st).openedQty = Q := by
    simp [Trade.new, Trade.openedQty, Trade.closedQty]
  have hoq : t.openQty = Q := by
    show (Trade.after _ _).openQty = Q
    rw [after_openQty]; rfl
  obtain ⟨b1, b2⟩ := after_bounds (Trade.new d Q o dt e c s st) (by rw [h0]; exact hQ) ops hv
  have hsum : t.closedQty + t.openedQty = Q := by unfold Trade.openedQty; rw [hoq]; ring
  refine ⟨b1, by rw [← h0]; exact b2, hsum, hoq, ?_, ?_⟩
  · rw [Trade.closed_iff]; constructor <;> intro h <;> omega
  · intro l c' r hl
    have hled := C22_closes_are_a_ledger d Q o dt e c s st ops
    have key : ∀ (R : ℤ) (rs : List (Option ℤ)) (a : List ℤ) (x : ℤ) (b : List ℤ), 0 ≤ R →
        (∀ n, some n ∈ rs → 0 ≤ n) → Spec.ledger R rs = a ++ x :: b → 0 ≤ x ∧ a.sum + x ≤ R := by
      intro R rs
      induction rs generalizing R with
      | nil => intro a x b _ _ h; simp [Spec.ledger] at h
      | cons r rs ih =>
        intro a x b hR hrs h
        simp only [Spec.ledger] at h
        set n := (match r with | none => R | some n => if n = 0 then R else min n R) with hn
        have hnb : 0 ≤ n ∧ n ≤ R := by
          rw [hn]
          rcases r with _ | m
          · exact ⟨hR, le_refl _⟩
          · have := hrs m (by simp)
            dsimp only
            split_ifs
            · exact ⟨hR, le_refl _⟩
            · exact ⟨le_min this hR, min_le_right _ _⟩
        rcases a with _ | ⟨y, a⟩
        · simp only [List.nil_append, List.cons.injEq] at h
          rw [← h.1]; simpa using hnb
        · simp only [List.cons_append, List.cons.injEq] at h
          have := ih (R - n) a x b (by omega) (fun m hm => hrs m (by simp [hm])) h.2
          rw [List.sum_cons, ← h.1]; omega
    have hmap : Spec.ledger Q (ops.filterMap Spec.TradeOp.request) =
        l.map TradeClose.qty ++ c'.qty :: r.map TradeClose.qty := by
      rw [← hled]; show t.closes.map _ = _; rw [hl]; simp
    refine key Q _ _ _ _ hQ ?_ hmap
    intro n hn
    obtain ⟨op, h1, h2⟩ := List.mem_filterMap.mp hn
    exact hv op h1 n h2

/-- C22: a request for `n > 0` closes `n`, or what is left if that is less. -/
theorem C22_request_clamped (t : Trade) (v : ℚ) (dt : DT) (n : ℤ) (hn : 0 < n) :
    (t.close v dt (some n)).closedQty = t.closedQty + min n t.openedQty := by
  rw [Trade.close_closedQty, t.closeQty_of_ne hn.ne']

/-- C22: an omitted quantity closes all the rest; so does 0. -/
theorem C22_omitted_closes_all (t : Trade) (v : ℚ) (dt : DT) :
    (t.close v dt none).closed = true ∧ (t.close v dt (some 0)).closed = true := by
  constructor <;> rw [Trade.closed_iff, Trade.close_openedQty]
  · rw [t.closeQty_none]; ring
  · rw [t.closeQty_zero]; ring

/-- The hypothesis on quantities is needed: closing a negative quantity enlarges the open position. -/
theorem C22_negative_close_grows (t : Trade) (v : ℚ) (dt : DT) (n : ℤ) (hn : n < 0)
    (h : 0 ≤ t.openedQty) : (t.close v dt (some n)).openedQty = t.openedQty - n := by
  rw [Trade.close_openedQty, t.closeQty_of_ne hn.ne, min_eq_left (by omega)]

private def dt0 : DT := ⟨0, 0, 0⟩

example : letI := Arith.exact
    ((Trade.new .buy 5 100 dt0 0 (some 99) none).after
      [.close 101 dt0 (some 2), .update 7, .close 102 dt0 (some 9), .close 103 dt0 none]).closes.map
        TradeClose.qty = [2, 3, 0] := by decide +kernel

/-! ## C23 -/

/-- Exact arithmetic: the account that shadows a trade. -/
def Trade.Shadows (t : Trade) (a : Spec.Account) : Prop :=
  t.openedQty = a.units ∧ t.curClose = a.price ∧ t.closedResult = a.cash

theorem avg_exact (hE : Exact) (d : Dir) (o : ℚ) (c : TradeClose) :
    closeResult d o c = c.qty * cent (Spec.move d o c.closeValue) := by
  unfold closeResult closeResultAvg
  cases d <;>
    simp only [fmul_exact hE, rnd_exact hE, fsub_exact hE, Spec.move] <;>
    rw [((isCent_cent _).mul_int _).cent, mul_comm]

theorem closedResult_close (hE : Exact) (t : Trade) (v : ℚ) (dt : DT) (q : Option ℤ) :
    (t.close v dt q).closedResult =
      t.closedResult + t.closeQty q * cent (Spec.move t.dir t.openValue v) := by
  have := avg_exact hE t.dir t.openValue ⟨v, t.closeQty q, dt, .created⟩
  simp only [Trade.closedResult, fsum_exact hE, Trade.close, List.map_append, List.sum_append,
    List.map_cons, List.map_nil, List.sum_cons, List.sum_nil, this]
  ring

theorem update_closedResult (t : Trade) (v : ℚ) : (t.update v).closedResult = t.closedResult := by
  unfold Trade.closedResult; simp

theorem Shadows.quote {t : Trade} {a : Spec.Account} (h : t.Shadows a) (v : ℚ) :
    (t.update v).Shadows (a.quote v) := by
  obtain ⟨h1, h2, h3⟩ := h
  unfold Spec.Account.quote
  by_cases hc : t.closed
  · have : a.units = 0 := by rw [← h1]; exact t.closed_iff.mp hc
    rw [if_pos this, Trade.update_closed _ hc]
    exact ⟨h1, h2, h3⟩
  · have : a.units ≠ 0 := fun e => hc (t.closed_iff.mpr (h1.trans e))
    rw [if_neg this]
    exact ⟨by simpa using h1, by rw [Trade.update_curClose, if_neg hc], by
      rw [update_closedResult]; exact h3⟩

theorem Shadows.sell (hE : Exact) {t : Trade} {a : Spec.Account} (h : t.Shadows a) (v : ℚ) (dt : DT)
    (q : Option ℤ) : (t.close v dt q).Shadows (a.sell t.dir t.openValue v q) := by
  obtain ⟨h1, h2, h3⟩ := h
  unfold Spec.Account.sell
  have := closeQty_ledger t q
  simp only [h1] at this
  refine ⟨?_, h2, ?_⟩
  · rw [Trade.close_openedQty, h1, this]
  · rw [closedResult_close hE, h3, this]

theorem run_fixed (t : Trade) (o : Spec.TradeOp) :
    (o.run t).dir = t.dir ∧ (o.run t).openValue = t.openValue := by
  cases o <;> simp [Spec.TradeOp.run, Trade.updateFromTick, Trade.closeFromTick]

theorem after_fixed (t : Trade) (ops : List Spec.TradeOp) :
    (t.after ops).dir = t.dir ∧ (t.after ops).openValue = t.openValue := by
  induction ops using List.reverseRecOn with
  | nil => exact ⟨rfl, rfl⟩
  | append_singleton ops o ih =>
    rw [Trade.after_concat, (run_fixed _ _).1, (run_fixed _ _).2]; exact ih

theorem updateFromTick_eq (t : Trade) (k : Tick) :
    t.updateFromTick k = t.update (Spec.exitQuote t.dir k) := by
  unfold Trade.updateFromTick Spec.exitQuote; rfl

theorem Shadows.run (hE : Exact) {t : Trade} {a : Spec.Account} (h : t.Shadows a) (o : Spec.TradeOp) :
    (o.run t).Shadows (a.step t.dir t.openValue o) := by
  cases o with
  | update v => exact Shadows.quote h v
  | tick k =>
    simp only [Spec.TradeOp.run, updateFromTick_eq]
    exact Shadows.quote h _
  | close v dt q => exact Shadows.sell hE h v dt q
  | closeTick k q =>
    simp only [Spec.TradeOp.run, Trade.closeFromTick, updateFromTick_eq]
    have h2 := Shadows.quote h (Spec.exitQuote t.dir k)
    have h3 := Shadows.sell hE h2 (t.update (Spec.exitQuote t.dir k)).curClose k.dt q
    simp only [Trade.update_dir, Trade.update_openValue] at h3
    rw [h2.2.1] at h3 ⊢
    exact h3

theorem Shadows.after (hE : Exact) {t : Trade} {a : Spec.Account} (h : t.Shadows a)
    (ops : List Spec.TradeOp) :
    (t.after ops).Shadows (ops.foldl (Spec.Account.step t.dir t.openValue) a) := by
  induction ops using List.reverseRecOn with
  | nil => exact h
  | append_singleton ops o ih =>
    rw [Trade.after_concat, List.foldl_append]
    have := Shadows.run hE ih o
    rw [(after_fixed t ops).1, (after_fixed t ops).2] at this
    exact this

theorem Shadows.worth (hE : Exact) {t : Trade} {a : Spec.Account} (h : t.Shadows a) :
    t.result = a.worth t.dir t.openValue := by
  obtain ⟨h1, h2, h3⟩ := h
  unfold Trade.result Trade.openedResult Spec.Account.worth
  rw [fadd_exact hE, fmul_exact hE, h3, h1, ← h2]
  unfold Trade.openedResultAvg
  by_cases hc : t.closed
  · rw [if_pos hc, ← h1, t.closed_iff.mp hc]; simp
  · rw [if_neg hc]
    cases hd : t.dir <;> simp only [rnd_exact hE, fsub_exact hE, Spec.move] <;> ring

/-- C23 (exact arithmetic): at every moment of its life the result of a trade is what a bookkeeper gets:
the sum of what each close brought in plus the value of the rest at the last price, one cent-rounded price
move per unit, signed by the direction. -/
theorem C23_result_is_the_account (hE : Exact) (d : Dir) (Q : ℤ) (o : ℚ) (dt : DT) (e : ℕ) (c : Option ℚ)
    (s : Option ℕ) (st : Status) (ops : List Spec.TradeOp) :
    let p := match c with | none => o | some x => if x = 0 then o else x
    ((Trade.new d Q o dt e c s st).after ops).result =
      (ops.foldl (Spec.Account.step d o) ⟨Q, 0, p⟩).worth d o := by
  intro p
  have h0 : (Trade.new d Q o dt e c s st).Shadows ⟨Q, 0, p⟩ :=
    ⟨by simp [Trade.new, Trade.openedQty, Trade.closedQty], rfl, by
      simp [Trade.new, Trade.closedResult, fsum]⟩
  have h := Shadows.worth hE (Shadows.after hE h0 ops)
  rw [(after_fixed _ ops).1, (after_fixed _ ops).2] at h
  exact h

/-- C23 (any float format): the result is the float sum of opened and closed parts; each close counts
`round(round(move, 2) * quantity, 2)`, the rest `round(move, 2) * quantity` at the current value, where the
move is signed by the direction. -/
theorem C23_result_in_floats (t : Trade) :
    t.result = fadd
      (if t.openQty = (t.closes.map TradeClose.qty).sum then 0
       else fmul (rnd (fl (Spec.move t.dir t.openValue t.curClose)))
        (t.openQty - (t.closes.map TradeClose.qty).sum : ℤ))
      ((t.closes.map fun c => rnd (fmul (rnd (fl (Spec.move t.dir t.openValue c.closeValue))) c.qty)).foldl
        fadd 0) := by
  have h1 : t.closedResult = (t.closes.map fun c =>
      rnd (fmul (rnd (fl (Spec.move t.dir t.openValue c.closeValue))) c.qty)).foldl fadd 0 := by
    unfold Trade.closedResult fsum
    congr 1
    refine List.map_congr_left fun c _ => ?_
    unfold closeResult closeResultAvg
    cases t.dir <;> rfl
  rw [← h1]
  unfold Trade.result
  congr 1
  unfold Trade.openedResult Trade.openedResultAvg
  by_cases hc : t.closed
  · have h2 := t.closed_iff.mp hc
    rw [if_pos hc, if_pos (by unfold Trade.openedQty Trade.closedQty at h2; omega), fmul_zero_left]
  · have h2 : t.openedQty ≠ 0 := fun h => hc (t.closed_iff.mpr h)
    rw [if_neg hc, if_neg (by unfold Trade.openedQty Trade.closedQty at h2; omega)]
    cases t.dir <;> rfl

/-- C23: `result_avg` is the result per opened unit, rounded to cents; it raises exactly for a trade
opened with quantity 0. -/
theorem C23_result_avg (hE : Exact) (t : Trade) :
    t.resultAvg = if t.openQty = 0 then .error .zeroDiv else .ok (cent (t.result / t.openQty)) := by
  unfold Trade.resultAvg pyDiv
  by_cases h : t.openQty = 0
  · rw [if_pos h, if_pos (by rw [h]; norm_num)]; rfl
  · rw [if_neg h, if_neg (by exact_mod_cast h)]
    simp only [bind, Except.bind, rnd_exact hE, fdiv_exact hE]

/-- C23: `closed_result_avg` is the cent-rounded mean over the closed units; it raises when there are closes
but no closed units. -/
theorem C23_closed_result_avg (hE : Exact) (t : Trade) :
    t.closedResultAvg = if t.closes = [] then .ok 0 else if t.closedQty = 0 then .error .zeroDiv else
      .ok (cent ((t.closes.map fun c => c.qty * cent (Spec.move t.dir t.openValue c.closeValue)).sum
        / t.closedQty)) := by
  unfold Trade.closedResultAvg pyDiv
  by_cases h : t.closes = []
  · rw [if_pos h, if_pos h, rnd_zero]
  · rw [if_neg h, if_neg h]
    by_cases h' : t.closedQty = 0
    · rw [if_pos h', if_pos (by rw [h']; norm_num)]; rfl
    · rw [if_neg h', if_neg (by exact_mod_cast h')]
      simp only [bind, Except.bind, rnd_exact hE, fdiv_exact hE, Trade.closedResult, fsum_exact hE]
      congr 4
      exact List.map_congr_left fun c _ => avg_exact hE _ _ c

/-- The raising case is reachable: a trade closed only with quantity 0 (opened with 0). -/
example : letI := Arith.exact
    ((Trade.new .buy 0 100 dt0 0 none none).after [.close 101 dt0 none]).closedResultAvg
      = .error .zeroDiv := by decide +kernel

example : letI := Arith.exact
    let t := (Trade.new .sell 5 100 dt0 0 (some 101) none).after
      [.close 99 dt0 (some 2), .tick ⟨dt0, 95, 97⟩, .closeTick ⟨dt0, 90, 1801/20⟩ (some 1), .update 103]
    t.result = 2 * 1 + 1 * (199/20) - 2 * 3 ∧ t.resultAvg = .ok (119/100) := by decide +kernel

/-! ## C24 -/

theorem closeResult_zero (d : Dir) (o v : ℚ) (dt : DT) (s : Status) : closeResult d o ⟨v, 0, dt, s⟩ = 0 := by
  unfold closeResult
  simp only [Int.cast_zero, fmul_zero_right, rnd_zero]

/-- One more call on a closed trade. -/
theorem run_frozen (t : Trade) (h : t.closed = true) (o : Spec.TradeOp) (hv : o.Valid) :
    (o.run t).result = t.result ∧ (o.run t).closedQty = t.closedQty ∧ (o.run t).curClose = t.curClose ∧
      (o.run t).minRes = t.minRes ∧ (o.run t).maxRes = t.maxRes ∧ (o.run t).closed = true ∧
      (o.run t).closedResult = t.closedResult := by
  have h0 := t.closed_iff.mp h
  have hclose : ∀ v dt q, (∀ n, q = some n → 0 ≤ n) →
      (t.close v dt q).result = t.result ∧ (t.close v dt q).closedQty = t.closedQty ∧
      (t.close v dt q).curClose = t.curClose ∧ (t.close v dt q).minRes = t.minRes ∧
      (t.close v dt q).maxRes = t.maxRes ∧ (t.close v dt q).closed = true ∧
      (t.close v dt q).closedResult = t.closedResult := by
    intro v dt q hq
    have hz : t.closeQty q = 0 := by
      have := Trade.closeQty_bounds (t := t) (by omega) (q := q) hq
      omega
    have hc : (t.close v dt q).closed = true := by
      rw [Trade.closed_iff, Trade.close_openedQty, hz, h0]; rfl
    have hr : (t.close v dt q).closedResult = t.closedResult := by
      unfold Trade.closedResult Trade.close
      rw [List.map_append, List.map_cons, List.map_nil, fsum_append, hz]
      rw [closeResult_zero, fadd_zero_right (fl_fsum _)]
    refine ⟨?_, by rw [Trade.close_closedQty, hz, add_zero], rfl, rfl, rfl, hc, hr⟩
    unfold Trade.result Trade.openedResult Trade.openedResultAvg
    rw [hr, if_pos hc, if_pos h, fmul_zero_left, fmul_zero_left]
  cases o with
  | update v =>
    simp [Spec.TradeOp.run, t.update_closed h, h]
  | tick k =>
    simp [Spec.TradeOp.run, t.updateFromTick_closed h, h]
  | close v dt q => exact hclose v dt q (fun n hn => hv n (by rw [hn]; rfl))
  | closeTick k q =>
    simp only [Spec.TradeOp.run, Trade.closeFromTick, t.updateFromTick_closed h]
    exact hclose _ _ q (fun n hn => hv n (by rw [hn]; rfl))

/-- C24 (any float format): nothing observable of a closed trade changes any more, except that further
closes add records of quantity 0. -/
theorem C24_closed_trade_frozen (t : Trade) (h : t.closed = true) (ops : List Spec.TradeOp)
    (hv : ∀ o ∈ ops, o.Valid) :
    let t' := t.after ops
    t'.closed = true ∧ t'.result = t.result ∧ t'.closedQty = t.closedQty ∧ t'.curClose = t.curClose ∧
      t'.minRes = t.minRes ∧ t'.maxRes = t.maxRes ∧ t'.closedResult = t.closedResult ∧
      ∃ l, t'.closes = t.closes ++ l ∧ ∀ c ∈ l, c.qty = 0 := by
  induction ops using List.reverseRecOn with
  | nil => exact ⟨h, rfl, rfl, rfl, rfl, rfl, rfl, [], by simp [Trade.after], by simp⟩
  | append_singleton ops o ih =>
    obtain ⟨i1, i2, i3, i4, i5, i6, i7, l, i8, i9⟩ := ih (fun o ho => hv o (by simp [ho]))
    obtain ⟨j1, j2, j3, j4, j5, j6, j7⟩ := run_frozen (t.after ops) i1 o (hv o (by simp))
    dsimp only
    rw [Trade.after_concat]
    refine ⟨j6, j1.trans i2, j2.trans i3, j3.trans i4, j4.trans i5, j5.trans i6, j7.trans i7, ?_⟩
    have hq0 : ∀ q, o.request = some q → (t.after ops).closeQty q = 0 := by
      intro q hq
      have h0 := (t.after ops).closed_iff.mp i1
      have := Trade.closeQty_bounds (t := t.after ops) (by omega) (q := q)
        (fun n hn => hv o (by simp) n (by rw [hq, hn]))
      omega
    cases o with
    | update v => exact ⟨l, by simpa [Spec.TradeOp.run] using i8, i9⟩
    | tick k => exact ⟨l, by simpa [Spec.TradeOp.run, Trade.updateFromTick] using i8, i9⟩
    | close v dt q =>
      refine ⟨l ++ [⟨v, 0, dt, .created⟩], ?_, ?_⟩
      · simp only [Spec.TradeOp.run, Trade.close, i8, hq0 q rfl, List.append_assoc]
      · simp only [List.mem_append, List.mem_singleton]
        rintro c (hc | rfl)
        · exact i9 c hc
        · rfl
    | closeTick k q =>
      refine ⟨l ++ [⟨(t.after ops).curClose, 0, k.dt, .created⟩], ?_, ?_⟩
      · simp only [Spec.TradeOp.run, Trade.closeFromTick, Trade.updateFromTick_closed _ i1, Trade.close, i8,
          hq0 q rfl, List.append_assoc]
      · simp only [List.mem_append, List.mem_singleton]
        rintro c (hc | rfl)
        · exact i9 c hc
        · rfl

/-- The hypothesis on quantities is needed: a negative close reopens a closed trade. -/
theorem C24_negative_close_reopens (t : Trade) (h : t.closed = true) (v : ℚ) (dt : DT) (n : ℤ)
    (hn : n < 0) : (t.close v dt (some n)).closed = false := by
  have h0 := t.closed_iff.mp h
  have := C22_negative_close_grows t v dt n hn (by omega)
  rw [Bool.eq_false_iff, ne_eq, Trade.closed_iff]
  omega

example : letI := Arith.exact
    let t := (Trade.new .buy 2 100 dt0 0 (some 99) none).after [.closeTick ⟨dt0, 104, 105⟩ none]
    t.closed = true ∧ t.result = 8 ∧
    (t.after [.tick ⟨dt0, 50, 60⟩, .close 10 dt0 (some 3), .update 1]).result = 8 := by decide +kernel

/-! ## C25 -/

theorem result_exact (hE : Exact) (t : Trade) :
    t.result = t.closedResult + t.openedQty * cent (Spec.move t.dir t.openValue t.curClose) :=
  Shadows.worth hE (a := ⟨t.openedQty, t.closedResult, t.curClose⟩) ⟨rfl, rfl, rfl⟩

/-- Closing at the current value turns opened result into closed result. -/
theorem close_at_current (hE : Exact) (t : Trade) (dt : DT) (q : Option ℤ) :
    (t.close t.curClose dt q).result = t.result := by
  rw [result_exact hE, result_exact hE, closedResult_close hE, Trade.close_openedQty]
  simp only [Trade.close_dir, Trade.close_openValue, Trade.close_curClose]
  push_cast
  ring

theorem update_minmax (t : Trade) (v : ℚ) :
    (t.update v).maxRes = (if t.closed then t.maxRes else max t.maxRes (t.update v).result) ∧
    (t.update v).minRes = (if t.closed then t.minRes else min t.minRes (t.update v).result) := by
  by_cases hc : t.closed
  · rw [t.update_closed hc, if_pos hc, if_pos hc]; exact ⟨rfl, rfl⟩
  · unfold Trade.update
    simp only [if_neg hc, Trade.updateMinMax_maxRes, Trade.updateMinMax_minRes, Trade.updateMinMax_result,
      and_self]

/-- Spec: the results a trade had, over all the moments of its life. -/
def Spec.pastResults (t : Trade) (ops : List Spec.TradeOp) : Set ℚ :=
  {r | ∃ a, a <+: ops ∧ r = (t.after a).result}

/-- C25 in full: the extremes of a trade opened on a tick and then moved by ticks only are the least and
the greatest result it ever had. -/
def Spec.C25 : Prop :=
  ∀ (k : Tick) (e : ℕ) (d : Dir) (Q : ℤ) (s : Option ℕ) (t : Trade) (ops : List Spec.TradeOp),
    0 < Q → k.bid ≤ k.ask → Trade.openFromTick k e (some d) Q s = .ok t →
    (∀ o ∈ ops, o.Valid ∧ o.Quoted) →
    IsLeast (Spec.pastResults t ops) (t.after ops).minRes ∧
      IsGreatest (Spec.pastResults t ops) (t.after ops).maxRes

theorem pastResults_concat (t : Trade) (ops : List Spec.TradeOp) (o : Spec.TradeOp) :
    Spec.pastResults t (ops ++ [o]) = insert (o.run (t.after ops)).result (Spec.pastResults t ops) := by
  ext r
  simp only [Spec.pastResults, Set.mem_ofPred_eq, Set.mem_insert_iff]
  constructor
  · rintro ⟨a, ha, rfl⟩
    rcases List.prefix_concat_iff.mp ha with rfl | h
    · left; rw [Trade.after_concat]
    · right; exact ⟨a, h, rfl⟩
  · rintro (rfl | ⟨a, ha, rfl⟩)
    · exact ⟨ops ++ [o], List.prefix_refl _, by rw [Trade.after_concat]⟩
    · exact ⟨a, ha.trans (List.prefix_append _ _), rfl⟩

theorem mem_pastResults_last (t : Trade) (ops : List Spec.TradeOp) :
    (t.after ops).result ∈ Spec.pastResults t ops := ⟨ops, List.prefix_refl _, rfl⟩

/-- One step of the extremes, when the call changes the result as its update alone does. -/
theorem extremes_step (t : Trade) (ops : List Spec.TradeOp) (o : Spec.TradeOp) (v : ℚ)
    (h1 : (o.run (t.after ops)).result = ((t.after ops).update v).result)
    (h2 : (o.run (t.after ops)).minRes = ((t.after ops).update v).minRes)
    (h3 : (o.run (t.after ops)).maxRes = ((t.after ops).update v).maxRes)
    (ih : IsLeast (Spec.pastResults t ops) (t.after ops).minRes ∧
      IsGreatest (Spec.pastResults t ops) (t.after ops).maxRes) :
    IsLeast (Spec.pastResults t (ops ++ [o])) (t.after (ops ++ [o])).minRes ∧
      IsGreatest (Spec.pastResults t (ops ++ [o])) (t.after (ops ++ [o])).maxRes := by
  rw [pastResults_concat, Trade.after_concat, h1, h2, h3]
  obtain ⟨m1, m2⟩ := update_minmax (t.after ops) v
  rw [m1, m2]
  by_cases hc : (t.after ops).closed
  · rw [if_pos hc, if_pos hc, Trade.update_closed _ hc,
      Set.insert_eq_of_mem (mem_pastResults_last t ops)]
    exact ih
  · rw [if_neg hc, if_neg hc, min_comm, max_comm]
    exact ⟨ih.1.insert _, ih.2.insert _⟩

theorem new_result (d : Dir) (Q : ℤ) (o : ℚ) (dt : DT) (e : ℕ) (c : Option ℚ) (s : Option ℕ)
    (st : Status) : (Trade.new d Q o dt e c s st).minRes = (Trade.new d Q o dt e c s st).result ∧
      (Trade.new d Q o dt e c s st).maxRes = (Trade.new d Q o dt e c s st).result := by
  constructor <;> exact Trade.result_congr rfl rfl rfl rfl rfl

/-- C25 for exact arithmetic, for any way of creating the trade and any quantities.
Missing with respect to `Spec.C25`: binary64 rounding, for which it is false (`C25_false`). -/
theorem C25_extremes_partial (hE : Exact) (d : Dir) (Q : ℤ) (o : ℚ) (dt : DT) (e : ℕ) (c : Option ℚ)
    (s : Option ℕ) (st : Status) (ops : List Spec.TradeOp) (hq : ∀ o ∈ ops, o.Quoted) :
    let t := Trade.new d Q o dt e c s st
    IsLeast (Spec.pastResults t ops) (t.after ops).minRes ∧
      IsGreatest (Spec.pastResults t ops) (t.after ops).maxRes := by
  intro t
  induction ops using List.reverseRecOn with
  | nil =>
    have hs : Spec.pastResults t [] = {t.result} := by
      ext r; simp [Spec.pastResults, Trade.after]
    obtain ⟨n1, n2⟩ := new_result d Q o dt e c s st
    rw [hs]
    show IsLeast {t.result} t.minRes ∧ IsGreatest {t.result} t.maxRes
    rw [show t.minRes = t.result from n1, show t.maxRes = t.result from n2]
    exact ⟨isLeast_singleton, isGreatest_singleton⟩
  | append_singleton ops o ih =>
    have ih := ih (fun o ho => hq o (by simp [ho]))
    cases o with
    | update v => exact extremes_step t ops _ v rfl rfl rfl ih
    | tick k =>
      refine extremes_step t ops _ (Spec.exitQuote (t.after ops).dir k) ?_ ?_ ?_ ih <;>
        simp only [Spec.TradeOp.run, updateFromTick_eq]
    | close v dt q => exact (hq _ (List.mem_append_right _ (List.mem_singleton_self _))).elim
    | closeTick k q =>
      refine extremes_step t ops _ (Spec.exitQuote (t.after ops).dir k) ?_ ?_ ?_ ih <;>
        simp only [Spec.TradeOp.run, Trade.closeFromTick, updateFromTick_eq]
      · exact close_at_current hE _ _ _
      · rfl
      · rfl

/-- C25, in the form of the property list: the result always lies between the extremes. -/
theorem C25_between_partial (hE : Exact) (d : Dir) (Q : ℤ) (o : ℚ) (dt : DT) (e : ℕ) (c : Option ℚ)
    (s : Option ℕ) (st : Status) (ops : List Spec.TradeOp) (hq : ∀ o ∈ ops, o.Quoted) :
    let t := (Trade.new d Q o dt e c s st).after ops
    t.minRes ≤ t.result ∧ t.result ≤ t.maxRes := by
  have h := C25_extremes_partial hE d Q o dt e c s st ops hq
  exact ⟨h.1.2 (mem_pastResults_last _ _), h.2.2 (mem_pastResults_last _ _)⟩

/-- C25 (any float format): while no close intervenes the extremes are exactly the least and greatest
results. -/
theorem C25_updates_any_format (d : Dir) (Q : ℤ) (o : ℚ) (dt : DT) (e : ℕ) (c : Option ℚ)
    (s : Option ℕ) (st : Status) (ops : List Spec.TradeOp) (hq : ∀ o ∈ ops, o.request = none) :
    let t := Trade.new d Q o dt e c s st
    IsLeast (Spec.pastResults t ops) (t.after ops).minRes ∧
      IsGreatest (Spec.pastResults t ops) (t.after ops).maxRes := by
  intro t
  induction ops using List.reverseRecOn with
  | nil =>
    have hs : Spec.pastResults t [] = {t.result} := by
      ext r; simp [Spec.pastResults, Trade.after]
    obtain ⟨n1, n2⟩ := new_result d Q o dt e c s st
    rw [hs]
    show IsLeast {t.result} t.minRes ∧ IsGreatest {t.result} t.maxRes
    rw [show t.minRes = t.result from n1, show t.maxRes = t.result from n2]
    exact ⟨isLeast_singleton, isGreatest_singleton⟩
  | append_singleton ops o ih =>
    have ih := ih (fun o ho => hq o (by simp [ho]))
    cases o with
    | update v => exact extremes_step t ops _ v rfl rfl rfl ih
    | tick k =>
      refine extremes_step t ops _ (Spec.exitQuote (t.after ops).dir k) ?_ ?_ ?_ ih <;>
        simp only [Spec.TradeOp.run, updateFromTick_eq]
    | close v dt q => 
      have h := hq _ (List.mem_append_right _ (List.mem_singleton_self _))
      cases h
    | closeTick k q => 
      have h := hq _ (List.mem_append_right _ (List.mem_singleton_self _))
      cases h

/-! ## C26 -/

/-- C26 in full. -/
def Spec.C26 : Prop :=
  ∀ (k : Tick) (e : ℕ) (d : Dir) (Q : ℤ) (s : Option ℕ), 0 < Q → k.bid ≤ k.ask →
    ∃ t, Trade.openFromTick k e (some d) Q s = .ok t ∧ t.openValue = Spec.entryQuote d k ∧
      t.curClose = Spec.exitQuote d k ∧ t.result = - fmul k.spread Q

/-- The unit result at the opening quotes is minus the spread. -/
theorem avg_spread (d : Dir) (k : Tick) :
    rnd (fl (Spec.move d (Spec.entryQuote d k) (Spec.exitQuote d k))) = - k.spread := by
  unfold Tick.spread
  rw [← rnd_neg, ← fsub_neg_swap]
  cases d <;> rfl

theorem openedResultAvg_eq (t : Trade) : t.openedResultAvg =
    if t.closed then 0 else rnd (fl (Spec.move t.dir t.openValue t.curClose)) := by
  unfold Trade.openedResultAvg
  split_ifs
  · rfl
  · cases t.dir <;> rfl

theorem closeResultAvg_eq (d : Dir) (o : ℚ) (c : TradeClose) :
    closeResultAvg d o c = rnd (fl (Spec.move d o c.closeValue)) := by cases d <;> rfl

theorem open_ok (k : Tick) (e : ℕ) (d : Dir) (Q : ℤ) (s : Option ℕ) :
    Trade.openFromTick k e (some d) Q s = .ok
      (Trade.new d Q (Spec.entryQuote d k) k.dt e (some (Spec.exitQuote d k)) s) := by
  cases d <;> rfl

theorem new_curClose (d : Dir) (Q : ℤ) (o x : ℚ) (dt : DT) (e : ℕ) (s : Option ℕ) (st : Status)
    (h : x ≠ 0) : (Trade.new d Q o dt e (some x) s st).curClose = x := by
  unfold Trade.new; simp [h]

/-- C26 (any float format): a trade opens at the entry quote of the tick and is valued at its exit quote;
its first result is minus quantity times spread.
Missing with respect to `Spec.C26`: an exit quote of 0 (see `C26_false`). -/
theorem C26_open_side_partial (k : Tick) (e : ℕ) (d : Dir) (Q : ℤ) (s : Option ℕ)
    (hx : Spec.exitQuote d k ≠ 0) :
    ∃ t, Trade.openFromTick k e (some d) Q s = .ok t ∧ t.openValue = Spec.entryQuote d k ∧
      t.curClose = Spec.exitQuote d k ∧ t.openQty = Q ∧ t.dir = d ∧ t.dt = k.dt ∧
      t.result = - fmul k.spread Q := by
  refine ⟨_, open_ok k e d Q s, rfl, new_curClose _ _ _ _ _ _ _ _ hx, rfl, rfl, rfl, ?_⟩
  set t := Trade.new d Q (Spec.entryQuote d k) k.dt e (some (Spec.exitQuote d k)) s with ht
  have hcl : t.closedResult = 0 := by rw [ht]; simp [Trade.new, Trade.closedResult, fsum]
  have hc : t.curClose = Spec.exitQuote d k := new_curClose _ _ _ _ _ _ _ _ hx
  have hq : t.openedQty = Q := by rw [ht]; simp [Trade.new, Trade.openedQty, Trade.closedQty]
  have hd : t.dir = d := rfl
  have ho : t.openValue = Spec.entryQuote d k := rfl
  unfold Trade.result Trade.openedResult
  rw [hcl, hq]
  have havg : fmul t.openedResultAvg Q = - fmul k.spread Q := by
    rw [openedResultAvg_eq]
    by_cases hz : t.closed
    · have : Q = 0 := by rw [← hq]; exact t.closed_iff.mp hz
      rw [if_pos hz, this]; simp [fmul_zero_right]
    · rw [if_neg hz, hd, hc, ho, avg_spread, fmul_neg_left]
  rw [havg, fadd_zero_right]
  rw [fl_neg]
  unfold fmul
  rw [fl_idem]

/-- C26: an invalid direction is refused. -/
theorem C26_invalid_direction (k : Tick) (e : ℕ) (Q : ℤ) (s : Option ℕ) :
    Trade.openFromTick k e none Q s = .error .trade := rfl

/-- C26: an open trade that receives a tick is valued at the exit quote of that tick. -/
theorem C26_valued_at_exit_quote (t : Trade) (k : Tick) (h : t.closed = false) :
    (t.updateFromTick k).curClose = Spec.exitQuote t.dir k := by
  rw [updateFromTick_eq, Trade.update_curClose, h]; rfl

/-- C26: an open trade closed on a tick is closed at the exit quote and datetime of that tick. -/
theorem C26_closed_at_exit_quote (t : Trade) (k : Tick) (q : Option ℤ) (h : t.closed = false) :
    ∃ c, (t.closeFromTick k q).closes = t.closes ++ [c] ∧ c.closeValue = Spec.exitQuote t.dir k ∧
      c.dt = k.dt ∧ c.qty = t.closeQty q := by
  refine ⟨⟨Spec.exitQuote t.dir k, t.closeQty q, k.dt, .created⟩, ?_, rfl, rfl, rfl⟩
  unfold Trade.closeFromTick Trade.close
  simp only [C26_valued_at_exit_quote t k h]
  simp [updateFromTick_eq]

/-- C26 (any float format): opened and closed on the same tick, a trade loses quantity times spread (to the
cent); this holds for a quote of 0 as well. -/
theorem C26_round_trip (k : Tick) (e : ℕ) (d : Dir) (Q : ℤ) (hQ : Q ≠ 0) (s : Option ℕ) (t : Trade)
    (ht : Trade.openFromTick k e (some d) Q s = .ok t) :
    (t.closeFromTick k none).closed = true ∧
      (t.closeFromTick k none).result = - rnd (fmul k.spread Q) := by
  rw [open_ok] at ht
  injection ht with ht
  have hq : t.openedQty = Q := by rw [← ht]; simp [Trade.new, Trade.openedQty, Trade.closedQty]
  have ho : t.openValue = Spec.entryQuote d k := by rw [← ht]; rfl
  have hd : t.dir = d := by rw [← ht]; rfl
  have hnc : t.closed = false := by rw [Bool.eq_false_iff, ne_eq, t.closed_iff, hq]; exact hQ
  obtain ⟨c, c1, c2, c3, c4⟩ := C26_closed_at_exit_quote t k none hnc
  rw [t.closeQty_none, hq] at c4
  have hcl : t.closes = [] := by rw [← ht]; rfl
  have hcl' : (t.closeFromTick k none).closed = true := (C22_omitted_closes_all (t.updateFromTick k) _ _).1
  refine ⟨hcl', ?_⟩
  unfold Trade.result Trade.openedResult Trade.openedResultAvg
  rw [if_pos hcl', fmul_zero_left]
  unfold Trade.closedResult
  rw [c1, hcl, List.nil_append, List.map_cons, List.map_nil]
  have hd' : (t.closeFromTick k none).dir = d := by
    rw [← hd]; exact (run_fixed t (.closeTick k none)).1
  have ho' : (t.closeFromTick k none).openValue = Spec.entryQuote d k := by
    rw [← ho]; exact (run_fixed t (.closeTick k none)).2
  have hcr : closeResult d (Spec.entryQuote d k) c = - rnd (fmul k.spread Q) := by
    unfold closeResult
    rw [closeResultAvg_eq, c2, c4, hd, avg_spread, fmul_neg_left, rnd_neg]
  have hfl : fl (rnd (fmul k.spread Q)) = rnd (fmul k.spread Q) := fl_rnd _
  rw [hd', ho', hcr]
  unfold fsum
  have hfl' : fl (-rnd (fmul k.spread Q)) = -rnd (fmul k.spread Q) := by rw [fl_neg, hfl]
  rw [List.foldl_cons, List.foldl_nil, fadd_zero_left hfl', fadd_zero_left hfl']

/-- With exact arithmetic and a quantity in whole units the loss is exactly quantity times spread. -/
theorem C26_round_trip_exact (hE : Exact) (k : Tick) (e : ℕ) (d : Dir) (Q : ℤ) (hQ : Q ≠ 0)
    (s : Option ℕ) (t : Trade) (ht : Trade.openFromTick k e (some d) Q s = .ok t) :
    (t.closeFromTick k none).result = - (Q * cent (k.ask - k.bid)) := by
  rw [(C26_round_trip k e d Q hQ s t ht).2, rnd_exact hE, fmul_exact hE]
  unfold Tick.spread
  rw [rnd_exact hE, fsub_exact hE, ((isCent_cent _).mul_int Q).cent, mul_comm]

/-! ## C27 -/

/-- Close `qs` one after the other at the same value. -/
def Spec.closeAll (v : ℚ) (dt : DT) (t : Trade) (qs : List ℤ) : Trade :=
  qs.foldl (fun t n => t.close v dt (some n)) t

theorem closeAll_quantities (v : ℚ) (dt : DT) (t : Trade) (qs : List ℤ) (hq : ∀ n ∈ qs, 0 < n)
    (h0 : 0 ≤ t.openedQty) :
    (Spec.closeAll v dt t qs).openedQty = t.openedQty - min qs.sum t.openedQty := by
  induction qs generalizing t with
  | nil => simp [Spec.closeAll, h0]
  | cons n qs ih =>
    have hn := hq n (by simp)
    have e : Spec.closeAll v dt t (n :: qs) = Spec.closeAll v dt (t.close v dt (some n)) qs := rfl
    have hs : 0 ≤ qs.sum := List.sum_nonneg (fun m hm => (hq m (by simp [hm])).le)
    rw [e, ih _ (fun m hm => hq m (by simp [hm])) (by
      rw [Trade.close_openedQty, t.closeQty_of_ne hn.ne']; omega),
      Trade.close_openedQty, t.closeQty_of_ne hn.ne', List.sum_cons]
    omega

theorem closeAll_result (hE : Exact) (v : ℚ) (dt : DT) (t : Trade) (qs : List ℤ) :
    (Spec.closeAll v dt t qs).closedResult = t.closedResult +
      (t.openedQty - (Spec.closeAll v dt t qs).openedQty : ℤ) * cent (Spec.move t.dir t.openValue v) := by
  induction qs generalizing t with
  | nil => simp [Spec.closeAll]
  | cons n qs ih =>
    have e : Spec.closeAll v dt t (n :: qs) = Spec.closeAll v dt (t.close v dt (some n)) qs := rfl
    rw [e, ih, closedResult_close hE, Trade.close_openedQty]
    simp only [Trade.close_dir, Trade.close_openValue]
    push_cast
    ring

/-- C27 (exact arithmetic): closing in parts brings in the same as closing once, and leaves the same
quantity open, whatever the parts, also when they ask for more than there is. -/
theorem C27_split_close_partial (hE : Exact) (t : Trade) (h0 : 0 ≤ t.openedQty) (v : ℚ) (dt dt' : DT)
    (qs : List ℤ) (hne : qs ≠ []) (hq : ∀ n ∈ qs, 0 < n) :
    (Spec.closeAll v dt t qs).closedResult = (t.close v dt' (some qs.sum)).closedResult ∧
      (Spec.closeAll v dt t qs).closedQty = (t.close v dt' (some qs.sum)).closedQty ∧
      (Spec.closeAll v dt t qs).result = (t.close v dt' (some qs.sum)).result := by
  have hpos : 0 < qs.sum := List.sum_pos qs hq hne
  have ho : (Spec.closeAll v dt t qs).openedQty = (t.close v dt' (some qs.sum)).openedQty := by
    rw [closeAll_quantities v dt t qs hq h0, Trade.close_openedQty, t.closeQty_of_ne hpos.ne']
  have hfix : (Spec.closeAll v dt t qs).dir = t.dir ∧ (Spec.closeAll v dt t qs).openValue = t.openValue ∧
      (Spec.closeAll v dt t qs).curClose = t.curClose ∧ (Spec.closeAll v dt t qs).openQty = t.openQty := by
    clear hne hpos ho hq h0
    induction qs generalizing t with
    | nil => exact ⟨rfl, rfl, rfl, rfl⟩
    | cons n qs ih => exact ih (t.close v dt (some n))
  have hr : (Spec.closeAll v dt t qs).closedResult = (t.close v dt' (some qs.sum)).closedResult := by
    rw [closeAll_result hE, ho, closedResult_close hE, Trade.close_openedQty]
    push_cast
    ring
  refine ⟨hr, ?_, ?_⟩
  · have h1 := hfix.2.2.2
    have h2 : (t.close v dt' (some qs.sum)).openQty = t.openQty := rfl
    unfold Trade.openedQty at ho
    omega
  · rw [result_exact hE, result_exact hE, hr, ho, hfix.1, hfix.2.1, hfix.2.2.1]
    rfl

/-! ## C28 -/

/-- Spec: the other direction. -/
def Spec.flip : Dir → Dir
  | .buy => .sell
  | .sell => .buy

/-- Spec: the quotes of the inverted market. -/
def Spec.mirrorTick (k : Tick) : Tick := ⟨k.dt, -k.ask, -k.bid⟩

/-- Spec: a call in the inverted market. -/
def Spec.TradeOp.mirror : Spec.TradeOp → Spec.TradeOp
  | .update v => .update (-v)
  | .tick k => .tick (Spec.mirrorTick k)
  | .close v dt q => .close (-v) dt q
  | .closeTick k q => .closeTick (Spec.mirrorTick k) q

/-- The mirror image of a trade. -/
def Trade.mirror (t : Trade) : Trade :=
  { t with dir := Spec.flip t.dir, openValue := -t.openValue, curClose := -t.curClose,
           closes := t.closes.map (fun c => { c with closeValue := -c.closeValue }) }

theorem fsub_neg_neg (x y : ℚ) : fsub (-x) (-y) = fsub y x := by
  unfold fsub; congr 1; ring

theorem mirror_openedQty (t : Trade) : t.mirror.openedQty = t.openedQty := by
  unfold Trade.openedQty Trade.closedQty Trade.mirror
  simp [List.map_map, Function.comp_def]

theorem mirror_closedQty (t : Trade) : t.mirror.closedQty = t.closedQty := by
  unfold Trade.closedQty Trade.mirror
  simp [List.map_map, Function.comp_def]

theorem mirror_closed (t : Trade) : t.mirror.closed = t.closed := by
  unfold Trade.closed; rw [mirror_openedQty]

theorem mirror_closedResult (t : Trade) : t.mirror.closedResult = t.closedResult := by
  unfold Trade.closedResult Trade.mirror
  simp only [List.map_map]
  congr 1
  refine List.map_congr_left fun c _ => ?_
  simp only [Function.comp_apply]
  unfold closeResult closeResultAvg
  cases t.dir <;> simp only [Spec.flip, fsub_neg_neg]

theorem mirror_result (t : Trade) : t.mirror.result = t.result := by
  unfold Trade.result Trade.openedResult
  rw [mirror_closedResult, mirror_openedQty]
  congr 2
  unfold Trade.openedResultAvg
  rw [mirror_closed]
  unfold Trade.mirror
  cases t.dir <;> simp only [Spec.flip, fsub_neg_neg]

theorem mirror_updateMinMax (t : Trade) : t.updateMinMax.mirror = t.mirror.updateMinMax := by
  have h1 : t.mirror.updateMinMax.maxRes = max t.maxRes t.result := by
    rw [Trade.updateMinMax_maxRes, mirror_result]; rfl
  have h2 : t.mirror.updateMinMax.minRes = min t.minRes t.result := by
    rw [Trade.updateMinMax_minRes, mirror_result]; rfl
  have e : ∀ u : Trade, u.updateMinMax =
      { u with maxRes := (max u.maxRes u.result), minRes := (min u.minRes u.result) } := by
    intro u
    rw [← Trade.updateMinMax_maxRes, ← Trade.updateMinMax_minRes]
    unfold Trade.updateMinMax
    dsimp only
    split_ifs <;> rfl
  rw [e, e, mirror_result]
  rfl

theorem mirror_update (t : Trade) (v : ℚ) : (t.update v).mirror = t.mirror.update (-v) := by
  unfold Trade.update
  rw [mirror_closed]
  split_ifs
  · rfl
  · rw [mirror_updateMinMax]; rfl

theorem mirror_close (t : Trade) (v : ℚ) (dt : DT) (q : Option ℤ) :
    (t.close v dt q).mirror = t.mirror.close (-v) dt q := by
  have : t.mirror.closeQty q = t.closeQty q := by
    unfold Trade.closeQty; rw [mirror_openedQty]
  unfold Trade.close
  rw [this]
  unfold Trade.mirror
  simp

theorem mirror_exit (d : Dir) (k : Tick) :
    Spec.exitQuote (Spec.flip d) (Spec.mirrorTick k) = - Spec.exitQuote d k := by cases d <;> rfl

theorem mirror_run (t : Trade) (o : Spec.TradeOp) : (o.run t).mirror = o.mirror.run t.mirror := by
  have hd : t.mirror.dir = Spec.flip t.dir := rfl
  cases o with
  | update v => exact mirror_update t v
  | tick k =>
    simp only [Spec.TradeOp.run, Spec.TradeOp.mirror, updateFromTick_eq, hd, mirror_exit]
    exact mirror_update t _
  | close v dt q => exact mirror_close t v dt q
  | closeTick k q =>
    simp only [Spec.TradeOp.run, Spec.TradeOp.mirror, Trade.closeFromTick, updateFromTick_eq, hd,
      mirror_exit, mirror_close, mirror_update]
    rw [← mirror_update]
    rfl

theorem mirror_after (t : Trade) (ops : List Spec.TradeOp) :
    (t.after ops).mirror = t.mirror.after (ops.map Spec.TradeOp.mirror) := by
  induction ops generalizing t with
  | nil => rfl
  | cons o ops ih =>
    have e : t.after (o :: ops) = (o.run t).after ops := rfl
    rw [e, ih, mirror_run]; rfl

theorem mirror_new (k : Tick) (e : ℕ) (d : Dir) (Q : ℤ) (s : Option ℕ) :
    (Trade.new d Q (Spec.entryQuote d k) k.dt e (some (Spec.exitQuote d k)) s).mirror =
      Trade.new (Spec.flip d) Q (Spec.entryQuote (Spec.flip d) (Spec.mirrorTick k)) k.dt e
        (some (Spec.exitQuote (Spec.flip d) (Spec.mirrorTick k))) s := by
  have h1 : Spec.entryQuote (Spec.flip d) (Spec.mirrorTick k) = - Spec.entryQuote d k := by
    cases d <;> rfl
  have key : ∀ t : Trade, ({ t with maxRes := t.result, minRes := t.result } : Trade).mirror =
      { t.mirror with maxRes := t.mirror.result, minRes := t.mirror.result } := by
    intro t; rw [mirror_result]; rfl
  rw [mirror_exit, h1]
  unfold Trade.new
  refine (key _).trans ?_
  dsimp only
  have hc : (if -Spec.exitQuote d k = 0 then -Spec.entryQuote d k else -Spec.exitQuote d k) =
      -(if Spec.exitQuote d k = 0 then Spec.entryQuote d k else Spec.exitQuote d k) := by
    simp only [neg_eq_zero]; split_ifs <;> rfl
  rw [hc]
  rfl

/-- C28 (any float format): inverting the market and the direction changes nothing in the results,
extremes, quantities and averages of a trade, after any history of calls. -/
theorem C28_mirror (k : Tick) (e : ℕ) (d : Dir) (Q : ℤ) (s : Option ℕ) :
    ∃ t t', Trade.openFromTick k e (some d) Q s = .ok t ∧
      Trade.openFromTick (Spec.mirrorTick k) e (some (Spec.flip d)) Q s = .ok t' ∧
      ∀ ops : List Spec.TradeOp,
        let a := t.after ops
        let b := t'.after (ops.map Spec.TradeOp.mirror)
        b.result = a.result ∧ b.closedResult = a.closedResult ∧ b.minRes = a.minRes ∧
          b.maxRes = a.maxRes ∧ b.openedQty = a.openedQty ∧ b.closedQty = a.closedQty ∧
          b.closed = a.closed ∧ b.resultAvg = a.resultAvg ∧ b.closedResultAvg = a.closedResultAvg := by
  refine ⟨_, _, open_ok k e d Q s, open_ok (Spec.mirrorTick k) e (Spec.flip d) Q s, ?_⟩
  intro ops a b
  have hb : b = a.mirror := by
    show Trade.after _ _ = Trade.mirror (Trade.after _ _)
    rw [mirror_after, mirror_new]; rfl
  rw [hb]
  refine ⟨mirror_result a, mirror_closedResult a, rfl, rfl, mirror_openedQty a, mirror_closedQty a,
    mirror_closed a, ?_, ?_⟩
  · unfold Trade.resultAvg; rw [mirror_result]; rfl
  · unfold Trade.closedResultAvg
    rw [mirror_closedResult, mirror_closedQty]
    unfold Trade.mirror
    simp

end

/-! ## Negations and examples for C25 - C28 -/

/-- C25 is false of the code with binary64 floats: BUY 3 at 1.0/1.1 has result -0.30000000000000004; closing it on
the same tick gives -0.3, which is greater than `max_result`. -/
theorem C25_false : ¬ @Spec.C25 Arith.binary64 := by
  letI := Arith.binary64
  intro h
  have := (h ⟨dt0, 1, fl (11/10)⟩ 0 .buy 3 none _ [.closeTick ⟨dt0, 1, fl (11/10)⟩ none]
    (by norm_num) (by decide +kernel) rfl (by
      intro o ho
      rw [List.mem_singleton] at ho
      subst ho
      exact ⟨fun n hn => by simp [Spec.TradeOp.request] at hn, trivial⟩)).2.2 (mem_pastResults_last _ _)
  exact absurd this (by decide +kernel)

/-- A close at a price of its own is not reflected in the extremes, even in exact arithmetic. -/
theorem C25_direct_close_not_counted :
    letI := Arith.exact
    ∃ t : Trade, t.result = t.maxRes ∧ (t.close 200 dt0 none).result > (t.close 200 dt0 none).maxRes := by
  letI := Arith.exact
  exact ⟨Trade.new .buy 1 100 dt0 0 (some 99) none, by decide +kernel, by decide +kernel⟩

example : letI := Arith.exact
    let t := (Trade.new .buy 3 100 dt0 0 (some 99) none).after
      [.tick ⟨dt0, 104, 105⟩, .closeTick ⟨dt0, 90, 91⟩ (some 1), .tick ⟨dt0, 101, 102⟩]
    t.minRes = -30 ∧ t.maxRes = 12 ∧ t.result = -8 := by decide +kernel

/-- C26 is false of the code for a quote of 0: `current_close_value or open_value` takes the opening quote, so the
trade starts with result 0 instead of minus the spread. -/
theorem C26_false : ¬ @Spec.C26 Arith.exact := by
  letI := Arith.exact
  intro h
  obtain ⟨t, h1, -, h2, -⟩ := h ⟨dt0, 0, 1⟩ 0 .buy 1 none (by norm_num) (by norm_num)
  rw [open_ok] at h1
  injection h1 with h1
  rw [← h1] at h2
  exact absurd h2 (by decide +kernel)

example : letI := Arith.binary64
    ∃ t, Trade.openFromTick ⟨dt0, 1, fl (11/10)⟩ 0 (some .buy) 3 none = .ok t ∧
      t.result = - fl (fl (1/10) * 3) ∧ (t.closeFromTick ⟨dt0, 1, fl (11/10)⟩ none).result = - fl (3/10) :=
  ⟨_, rfl, by decide +kernel, by decide +kernel⟩

/-- C27 needs exact arithmetic: with binary64 floats closing 1 and 2 units at a gain of 0.1 each gives
0.30000000000000004, closing 3 gives 0.3. -/
theorem C27_not_in_binary64 :
    letI := Arith.binary64
    ∃ t : Trade, 0 ≤ t.openedQty ∧
      (Spec.closeAll (fl (11/10)) dt0 t [1, 2]).closedResult ≠
        (t.close (fl (11/10)) dt0 (some 3)).closedResult := by
  letI := Arith.binary64
  exact ⟨Trade.new .buy 3 1 dt0 0 none none, by decide +kernel, by decide +kernel⟩

example : letI := Arith.exact
    let t := Trade.new .sell 6 100 dt0 0 none none
    (Spec.closeAll (9733/100) dt0 t [1, 3, 1]).closedResult = (t.close (9733/100) dt0 (some 5)).closedResult ∧
    (t.close (9733/100) dt0 (some 5)).closedResult = 1335/100 := by decide +kernel

example : letI := Arith.exact
    let ops : List Spec.TradeOp := [.tick ⟨dt0, 90, 92⟩, .closeTick ⟨dt0, 95, 96⟩ (some 1)]
    let a := (Trade.new .buy 2 100 dt0 0 (some 99) none).after ops
    let b := (Trade.new .sell 2 (-100) dt0 0 (some (-99)) none).after (ops.map Spec.TradeOp.mirror)
    a.result = -10 ∧ b.result = -10 ∧ b.minRes = -20 := by decide +kernel

end Estrade
