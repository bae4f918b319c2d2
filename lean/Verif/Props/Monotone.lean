import Verif.Props.Bounds

/-!
# C72: better prices never give a worse result
(estrade/trade.py)

Two runs of the same calls on two trades, with different prices.  Holds in every float format.
-/

set_option linter.style.haveILetI false
set_option linter.unusedSectionVars false
set_option autoImplicit false

namespace Estrade

/-- Spec: leaving a trade at `y` is at least as good as leaving it at `x`. -/
def Spec.Favours (d : Dir) (x y : ℚ) : Prop :=
  match d with
  | .buy => x ≤ y
  | .sell => y ≤ x

/-- Spec: the same call, with a price at least as good. -/
def Spec.TradeOp.NoBetter (d : Dir) : Spec.TradeOp → Spec.TradeOp → Prop
  | .update v, .update v' => Spec.Favours d v v'
  | .tick k, .tick k' => Spec.Favours d (Spec.exitQuote d k) (Spec.exitQuote d k')
  | .close v _ q, .close v' _ q' => Spec.Favours d v v' ∧ q = q'
  | .closeTick k q, .closeTick k' q' => Spec.Favours d (Spec.exitQuote d k) (Spec.exitQuote d k') ∧ q = q'
  | _, _ => False

section
variable [Arith]

structure CloseLe (d : Dir) (c c' : TradeClose) : Prop where
  qty : c.qty = c'.qty
  pos : 0 ≤ c.qty
  value : Spec.Favours d c.closeValue c'.closeValue

/-- The trades compared: same calls, worse and better prices. -/
structure Worse (d : Dir) (t t' : Trade) : Prop where
  dir : t.dir = d
  dir' : t'.dir = d
  qty : t.openQty = t'.openQty
  closes : List.Forall₂ (CloseLe d) t.closes t'.closes
  value : Spec.Favours d t'.openValue t.openValue
  cur : Spec.Favours d t.curClose t'.curClose
  max : t.maxRes ≤ t'.maxRes
  min : t.minRes ≤ t'.minRes
  pos : 0 ≤ t.openedQty

theorem gain_mono_buy {o o' v v' : ℚ} (ho : Spec.Favours .buy o' o) (hv : Spec.Favours .buy v v') :
    rnd (fsub v o) ≤ rnd (fsub v' o') := by
  unfold Spec.Favours at ho hv
  exact rnd_mono (fl_mono (by linarith))

theorem gain_mono_sell {o o' v v' : ℚ} (ho : Spec.Favours .sell o' o) (hv : Spec.Favours .sell v v') :
    rnd (fsub o v) ≤ rnd (fsub o' v') := by
  unfold Spec.Favours at ho hv
  exact rnd_mono (fl_mono (by linarith))

theorem fmul_mono {x y : ℚ} {n : ℤ} (hn : 0 ≤ n) (h : x ≤ y) : fmul x n ≤ fmul y n :=
  fl_mono (mul_le_mul_of_nonneg_right h (by exact_mod_cast hn))

theorem closeResult_mono {d : Dir} {o o' : ℚ} {c c' : TradeClose} (ho : Spec.Favours d o' o) (h : CloseLe d c c') :
    closeResult d o c ≤ closeResult d o' c' := by
  unfold closeResult
  rw [← h.qty]
  refine rnd_mono (fmul_mono h.pos ?_)
  cases d
  · exact gain_mono_buy ho h.value
  · exact gain_mono_sell ho h.value

theorem foldl_fadd_mono {l l' : List ℚ} (h : List.Forall₂ (· ≤ ·) l l') : ∀ {a b : ℚ}, a ≤ b →
    l.foldl fadd a ≤ l'.foldl fadd b := by
  induction h with
  | nil => intro a b hab; exact hab
  | cons h _ ih => intro a b hab; exact ih (fl_mono (by linarith))

theorem Worse.closedQty {d : Dir} {t t' : Trade} (h : Worse d t t') : t.closedQty = t'.closedQty := by
  unfold Trade.closedQty
  have := h.closes
  generalize t.closes = l at this
  generalize t'.closes = l' at this
  induction this with
  | nil => rfl
  | cons hc _ ih => rw [List.map_cons, List.map_cons, List.sum_cons, List.sum_cons, hc.qty, ih]

theorem Worse.openedQty {d : Dir} {t t' : Trade} (h : Worse d t t') : t.openedQty = t'.openedQty := by
  unfold Trade.openedQty
  rw [h.qty, h.closedQty]

theorem Worse.closed {d : Dir} {t t' : Trade} (h : Worse d t t') : t.closed = t'.closed := by
  unfold Trade.closed
  rw [h.openedQty]

theorem Worse.result {d : Dir} {t t' : Trade} (h : Worse d t t') : t.result ≤ t'.result := by
  unfold Trade.result
  refine fl_mono (add_le_add ?_ ?_)
  · unfold Trade.openedResult
    rw [← h.openedQty]
    refine fmul_mono h.pos ?_
    unfold Trade.openedResultAvg
    rw [← h.closed, h.dir, h.dir']
    split_ifs
    · exact le_rfl
    · cases d
      · exact gain_mono_buy h.value h.cur
      · exact gain_mono_sell h.value h.cur
  · unfold Trade.closedResult fsum
    rw [h.dir, h.dir']
    refine foldl_fadd_mono ?_ le_rfl
    have := h.closes
    generalize t.closes = l at this
    generalize t'.closes = l' at this
    induction this with
    | nil => exact .nil
    | cons hc _ ih => exact .cons (closeResult_mono h.value hc) ih

theorem Worse.update {d : Dir} {t t' : Trade} (h : Worse d t t') {v v' : ℚ} (hv : Spec.Favours d v v') :
    Worse d (t.update v) (t'.update v') := by
  by_cases hc : t.closed = true
  · rw [Trade.update_closed _ hc, Trade.update_closed _ (h.closed ▸ hc)]
    exact h
  · have hc' : ¬ t'.closed = true := h.closed ▸ hc
    unfold Trade.update
    rw [if_neg hc, if_neg hc']
    have h1 : Worse d { t with curClose := v } { t' with curClose := v' } :=
      ⟨h.dir, h.dir', h.qty, h.closes, h.value, hv, h.max, h.min, h.pos⟩
    have h2 := h1.result
    refine ⟨by rw [Trade.updateMinMax_dir]; exact h.dir, by rw [Trade.updateMinMax_dir]; exact h.dir',
      by rw [Trade.updateMinMax_openQty, Trade.updateMinMax_openQty]; exact h.qty,
      by rw [Trade.updateMinMax_closes, Trade.updateMinMax_closes]; exact h.closes,
      by rw [Trade.updateMinMax_openValue, Trade.updateMinMax_openValue]; exact h.value,
      by rw [Trade.updateMinMax_curClose, Trade.updateMinMax_curClose]; exact hv, ?_, ?_, ?_⟩
    · rw [Trade.updateMinMax_maxRes, Trade.updateMinMax_maxRes]
      exact max_le_max h.max h2
    · rw [Trade.updateMinMax_minRes, Trade.updateMinMax_minRes]
      exact min_le_min h.min h2
    · have := h.pos
      unfold Trade.openedQty Trade.closedQty at *
      rw [Trade.updateMinMax_openQty, Trade.updateMinMax_closes]
      exact this

theorem Worse.closeQty {d : Dir} {t t' : Trade} (h : Worse d t t') (q : Option ℤ) : t.closeQty q = t'.closeQty q := by
  rw [closeQty_ledger, closeQty_ledger, h.openedQty]

theorem Worse.close {d : Dir} {t t' : Trade} (h : Worse d t t') {v v' : ℚ} (hv : Spec.Favours d v v') (dt dt' : DT)
    {q : Option ℤ} (hq : ∀ n, q = some n → 0 ≤ n) : Worse d (t.close v dt q) (t'.close v' dt' q) := by
  have hb := Trade.closeQty_bounds h.pos hq
  refine ⟨h.dir, h.dir', h.qty, ?_, h.value, h.cur, h.max, h.min, ?_⟩
  · exact List.rel_append h.closes (.cons ⟨h.closeQty q, hb.1, hv⟩ .nil)
  · rw [Trade.close_openedQty]
    linarith [hb.2]

theorem Worse.run {d : Dir} {t t' : Trade} (h : Worse d t t') {op op' : Spec.TradeOp} (hn : op.NoBetter d op')
    (hv : op.Valid) : Worse d (op.run t) (op'.run t') := by
  have htick : ∀ {k k' : Tick}, Spec.Favours d (Spec.exitQuote d k) (Spec.exitQuote d k') →
      Worse d (t.updateFromTick k) (t'.updateFromTick k') := by
    intro k k' hk
    unfold Trade.updateFromTick
    rw [h.dir, h.dir']
    refine h.update ?_
    cases d <;> exact hk
  rcases op with v | k | ⟨v, dt, q⟩ | ⟨k, q⟩ <;> rcases op' with v' | k' | ⟨v', dt', q'⟩ | ⟨k', q'⟩ <;>
    try exact hn.elim
  · exact h.update hn
  · exact htick hn
  · obtain ⟨h1, rfl⟩ := hn
    exact h.close h1 dt dt' (fun n hn => hv n (by rw [← hn]; rfl))
  · obtain ⟨h1, rfl⟩ := hn
    have := htick h1
    exact this.close this.cur _ _ (fun n hn => hv n (by rw [← hn]; rfl))

theorem Worse.after {d : Dir} {ops ops' : List Spec.TradeOp} (ho : List.Forall₂ (Spec.TradeOp.NoBetter d) ops ops') :
    ∀ {t t' : Trade}, Worse d t t' → (∀ op ∈ ops, op.Valid) → Worse d (t.after ops) (t'.after ops') := by
  induction ho with
  | nil => intro t t' h _; exact h
  | cons h1 _ ih =>
    intro t t' h hv
    exact ih (h.run h1 (hv _ (by simp))) (fun op hop => hv op (by simp [hop]))

/-- C72: two trades of the same direction and quantity, with the same calls; if the second is entered at a price at
least as good and every price of its calls is at least as good, its result, its best and its worst result are at
least as good, rounding included (any float format). -/
theorem C72_monotone (d : Dir) (Q : ℤ) (hQ : 0 ≤ Q) (o o' : ℚ) (dt dt' : DT) (e e' : ℕ) (c c' : Option ℚ)
    (s s' : Option ℕ) (st st' : Status) (ops ops' : List Spec.TradeOp) (hv : ∀ op ∈ ops, op.Valid)
    (ho : Spec.Favours d o' o) (hc : Spec.Favours d (Spec.startPrice o c) (Spec.startPrice o' c'))
    (hops : List.Forall₂ (Spec.TradeOp.NoBetter d) ops ops') :
    let t := (Trade.new d Q o dt e c s st).after ops
    let t' := (Trade.new d Q o' dt' e' c' s' st').after ops'
    t.result ≤ t'.result ∧ t.maxRes ≤ t'.maxRes ∧ t.minRes ≤ t'.minRes := by
  intro t t'
  have h0 : Worse d ⟨e, s, d, Q, [], o, Spec.startPrice o c, 0, 0, dt, st⟩
      ⟨e', s', d, Q, [], o', Spec.startPrice o' c', 0, 0, dt', st'⟩ :=
    ⟨rfl, rfl, rfl, .nil, ho, hc, le_rfl, le_rfl, by simpa [Trade.openedQty, Trade.closedQty] using hQ⟩
  have h1 : Worse d (Trade.new d Q o dt e c s st) (Trade.new d Q o' dt' e' c' s' st') :=
    ⟨rfl, rfl, rfl, .nil, ho, hc, h0.result, h0.result, by simpa [Trade.new, Trade.openedQty, Trade.closedQty] using hQ⟩
  have h := h1.after hops hv
  exact ⟨h.result, h.max, h.min⟩

/-- Spec: the quotes of `k'` enclose those of `k` (a wider spread on both sides). -/
def Spec.Wider (k' k : Tick) : Prop := k'.bid ≤ k.bid ∧ k.ask ≤ k'.ask

/-- Spec: a trade opened on a tick, then marked to a list of ticks with closes in between. -/
def Spec.ride (k : Tick) (d : Dir) (Q : ℤ) (l : List (Tick × Option (Option ℤ))) : Except PyErr Trade :=
  (Trade.openFromTick k 0 (some d) Q none).map fun t =>
    t.after (l.map fun p => match p.2 with | none => .tick p.1 | some q => .closeTick p.1 q)

/-- C72, spreads: the same decisions on quotes with a wider spread never give a better result.  Quotes of 0 on the exit
side of the opening tick are excluded: `C72_false`. -/
theorem C72_wider_spread_partial (k k' : Tick) (d : Dir) (Q : ℤ) (hQ : 0 ≤ Q) (hk : Spec.Wider k' k)
    (h0 : Spec.exitQuote d k ≠ 0) (h0' : Spec.exitQuote d k' ≠ 0)
    (l : List (Tick × Option (Option ℤ))) (l' : List (Tick × Option (Option ℤ)))
    (hl : List.Forall₂ (fun p' p => Spec.Wider p'.1 p.1 ∧ p'.2 = p.2) l' l)
    (hv : ∀ p ∈ l', ∀ n, p.2 = some (some n) → 0 ≤ n) :
    ∃ t t', Spec.ride k d Q l = .ok t ∧ Spec.ride k' d Q l' = .ok t' ∧ t'.result ≤ t.result ∧ t'.maxRes ≤ t.maxRes ∧
      t'.minRes ≤ t.minRes := by
  have hexit : ∀ {a b : Tick}, Spec.Wider a b → Spec.Favours d (Spec.exitQuote d a) (Spec.exitQuote d b) := by
    intro a b h
    cases d
    · exact h.1
    · exact h.2
  have hops : List.Forall₂ (Spec.TradeOp.NoBetter d)
      (l'.map fun p => match p.2 with | none => Spec.TradeOp.tick p.1 | some q => .closeTick p.1 q)
      (l.map fun p => match p.2 with | none => Spec.TradeOp.tick p.1 | some q => .closeTick p.1 q) := by
    clear hv
    induction hl with
    | nil => exact .nil
    | cons h _ ih =>
      refine .cons ?_ ih
      obtain ⟨h1, h2⟩ := h
      simp only [h2]
      split
      · exact hexit h1
      · exact ⟨hexit h1, rfl⟩
  have hvalid : ∀ op ∈ (l'.map fun p => match p.2 with | none => Spec.TradeOp.tick p.1 | some q => .closeTick p.1 q),
      op.Valid := by
    intro op hop
    obtain ⟨p, hp, rfl⟩ := List.mem_map.mp hop
    intro n hn
    rcases hq : p.2 with _ | q
    · rw [hq] at hn; cases hn
    · rw [hq] at hn
      cases hn
      exact hv p hp n hq
  cases d
  · refine ⟨_, _, rfl, rfl, ?_⟩
    refine C72_monotone .buy Q hQ k'.ask k.ask k'.dt k.dt 0 0 (some k'.bid) (some k.bid) none none _ _ _ _ hvalid
      hk.2 ?_ hops
    simp only [Spec.startPrice]
    rw [if_neg (by exact h0'), if_neg (by exact h0)]
    exact hk.1
  · refine ⟨_, _, rfl, rfl, ?_⟩
    refine C72_monotone .sell Q hQ k'.bid k.bid k'.dt k.dt 0 0 (some k'.ask) (some k.ask) none none _ _ _ _ hvalid
      hk.1 ?_ hops
    simp only [Spec.startPrice]
    rw [if_neg (by exact h0'), if_neg (by exact h0)]
    exact hk.2

end

/-! ## Concrete cases -/

/-- C72: a zero exit quote is taken as missing, and the wider spread gives the better result. -/
theorem C72_false : letI := Arith.binary64
    Spec.Wider ⟨Demo.dt, 0, 1⟩ ⟨Demo.dt, 1/2, 1⟩ ∧
    (Spec.ride ⟨Demo.dt, 0, 1⟩ .buy 2 []).map Trade.result = .ok 0 ∧
    (Spec.ride ⟨Demo.dt, 1/2, 1⟩ .buy 2 []).map Trade.result = .ok (-1) := by
  letI := Arith.binary64
  unfold Spec.Wider
  decide +kernel

/-- C72: three units bought, one closed half-way, in binary64; a wider spread loses 5 instead of 1. -/
example : letI := Arith.binary64
    let l : List (Tick × Option (Option ℤ)) := [(⟨Demo.dt, 101, 102⟩, some (some 1)), (⟨Demo.dt, 99, 100⟩, none)]
    let l' : List (Tick × Option (Option ℤ)) := [(⟨Demo.dt, 100, 103⟩, some (some 1)), (⟨Demo.dt, 99, 101⟩, none)]
    (Spec.ride ⟨Demo.dt, 99, 100⟩ .buy 3 l).map Trade.result = .ok (-1) ∧
    (Spec.ride ⟨Demo.dt, 98, 101⟩ .buy 3 l').map Trade.result = .ok (-5) ∧
    List.Forall₂ (fun p' p => Spec.Wider p'.1 p.1 ∧ p'.2 = p.2) l' l := by
  letI := Arith.binary64
  refine ⟨by decide +kernel, by decide +kernel, ?_⟩
  unfold Spec.Wider
  exact .cons ⟨⟨by norm_num, by norm_num⟩, rfl⟩ (.cons ⟨⟨by norm_num, by norm_num⟩, rfl⟩ .nil)

end Estrade
