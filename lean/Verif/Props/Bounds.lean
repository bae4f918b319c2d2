import Verif.Props.Ranges

/-!
# C67: the result of a trade lies between the worst and the best price it has met
-/

set_option linter.style.haveILetI false
set_option linter.unusedSectionVars false
set_option autoImplicit false

namespace Estrade

/-- Spec: the price a call brings to a trade. -/
def Spec.TradeOp.price (d : Dir) : Spec.TradeOp → ℚ
  | .update v => v
  | .tick k => Spec.exitQuote d k
  | .close v _ _ => v
  | .closeTick k _ => Spec.exitQuote d k

/-- Spec: gain per unit, in cents, at the worst of the prices in `[a, b]`. -/
def Spec.worst (d : Dir) (o a b : ℚ) : ℚ :=
  match d with
  | .buy => cent (a - o)
  | .sell => cent (o - b)

/-- Spec: gain per unit, in cents, at the best of the prices in `[a, b]`. -/
def Spec.best (d : Dir) (o a b : ℚ) : ℚ :=
  match d with
  | .buy => cent (b - o)
  | .sell => cent (o - a)

theorem move_between (d : Dir) (o a b v : ℚ) (h1 : a ≤ v) (h2 : v ≤ b) :
    Spec.worst d o a b ≤ cent (Spec.move d o v) ∧ cent (Spec.move d o v) ≤ Spec.best d o a b := by
  cases d
  · exact ⟨cent_mono (by unfold Spec.move; linarith), cent_mono (by unfold Spec.move; linarith)⟩
  · exact ⟨cent_mono (by unfold Spec.move; linarith), cent_mono (by unfold Spec.move; linarith)⟩

/-- The account of a trade whose prices lie in `[a, b]`. -/
structure Between (d : Dir) (o a b : ℚ) (Q : ℤ) (x : Spec.Account) : Prop where
  units : 0 ≤ x.units ∧ x.units ≤ Q
  price : a ≤ x.price ∧ x.price ≤ b
  low : (Q - x.units : ℤ) * Spec.worst d o a b ≤ x.cash
  high : x.cash ≤ (Q - x.units : ℤ) * Spec.best d o a b

theorem Between.quote {d : Dir} {o a b : ℚ} {Q : ℤ} {x : Spec.Account} (h : Between d o a b Q x) {v : ℚ} (h1 : a ≤ v)
    (h2 : v ≤ b) : Between d o a b Q (x.quote v) := by
  unfold Spec.Account.quote
  split_ifs
  · exact h
  · exact ⟨h.units, ⟨h1, h2⟩, h.low, h.high⟩

theorem Between.sell {d : Dir} {o a b : ℚ} {Q : ℤ} {x : Spec.Account} (h : Between d o a b Q x) {v : ℚ} (h1 : a ≤ v)
    (h2 : v ≤ b) {r : Option ℤ} (hr : ∀ n, r = some n → 0 ≤ n) : Between d o a b Q (x.sell d o v r) := by
  have hn : ∃ n : ℤ, 0 ≤ n ∧ n ≤ x.units ∧ x.sell d o v r =
      { x with units := x.units - n, cash := x.cash + n * cent (Spec.move d o v) } := by
    unfold Spec.Account.sell
    rcases r with _ | n
    · exact ⟨x.units, h.units.1, le_rfl, rfl⟩
    · simp only
      split_ifs with h0
      · exact ⟨x.units, h.units.1, le_rfl, rfl⟩
      · exact ⟨min n x.units, le_min (hr n rfl) h.units.1, min_le_right _ _, rfl⟩
  obtain ⟨n, n1, n2, e⟩ := hn
  rw [e]
  obtain ⟨m1, m2⟩ := move_between d o a b v h1 h2
  have hu := h.units
  have n1' : (0 : ℚ) ≤ n := by exact_mod_cast n1
  refine ⟨⟨by simp only; omega, by simp only; omega⟩, h.price, ?_, ?_⟩
  · have := h.low
    have := mul_le_mul_of_nonneg_left m1 n1'
    push_cast at *
    nlinarith
  · have := h.high
    have := mul_le_mul_of_nonneg_left m2 n1'
    push_cast at *
    nlinarith

theorem Between.step {d : Dir} {o a b : ℚ} {Q : ℤ} {x : Spec.Account} (h : Between d o a b Q x) {op : Spec.TradeOp}
    (hv : op.Valid) (h1 : a ≤ op.price d) (h2 : op.price d ≤ b) : Between d o a b Q (x.step d o op) := by
  cases op with
  | update v => exact h.quote h1 h2
  | tick k => exact h.quote h1 h2
  | close v dt q => exact h.sell h1 h2 (fun n hn => hv n (by rw [← hn]; rfl))
  | closeTick k q =>
    have := h.quote h1 h2
    exact this.sell this.price.1 this.price.2 (fun n hn => hv n (by rw [← hn]; rfl))

theorem Between.foldl {d : Dir} {o a b : ℚ} {Q : ℤ} {ops : List Spec.TradeOp} :
    ∀ {x : Spec.Account}, Between d o a b Q x → (∀ op ∈ ops, op.Valid) → (∀ op ∈ ops, a ≤ op.price d ∧ op.price d ≤ b) →
      Between d o a b Q (ops.foldl (Spec.Account.step d o) x) := by
  induction ops with
  | nil => intro x h _ _; exact h
  | cons op ops ih =>
    intro x h hv hp
    exact ih (h.step (hv op (by simp)) (hp op (by simp)).1 (hp op (by simp)).2) (fun y hy => hv y (by simp [hy]))
      (fun y hy => hp y (by simp [hy]))

theorem Between.worth {d : Dir} {o a b : ℚ} {Q : ℤ} {x : Spec.Account} (h : Between d o a b Q x) :
    Q * Spec.worst d o a b ≤ x.worth d o ∧ x.worth d o ≤ Q * Spec.best d o a b := by
  obtain ⟨m1, m2⟩ := move_between d o a b x.price h.price.1 h.price.2
  have hu : (0 : ℚ) ≤ x.units := by exact_mod_cast h.units.1
  have h1 := h.low
  have h2 := h.high
  have h3 := mul_le_mul_of_nonneg_left m1 hu
  have h4 := mul_le_mul_of_nonneg_left m2 hu
  unfold Spec.Account.worth
  push_cast at h1 h2
  constructor <;> nlinarith

/-- Spec: the price a trade starts with: the given one, or the opening price when there is none (or it is 0). -/
def Spec.startPrice (o : ℚ) (c : Option ℚ) : ℚ :=
  match c with
  | none => o
  | some x => if x = 0 then o else x

section
variable [Arith]

/-- C67 (exact arithmetic): whatever is done with a trade of `Q` units, its result lies between `Q` times the gain at the worst and
`Q` times the gain at the best of the prices it has met. -/
theorem C67_between (hE : Exact) (d : Dir) (Q : ℤ) (hQ : 0 ≤ Q) (o : ℚ) (dt : DT) (e : ℕ) (c : Option ℚ) (s : Option ℕ) (st : Status)
    (ops : List Spec.TradeOp) (hv : ∀ op ∈ ops, op.Valid) (a b : ℚ) (hc : a ≤ Spec.startPrice o c ∧ Spec.startPrice o c ≤ b)
    (hp : ∀ op ∈ ops, a ≤ op.price d ∧ op.price d ≤ b) :
    Q * Spec.worst d o a b ≤ ((Trade.new d Q o dt e c s st).after ops).result ∧
      ((Trade.new d Q o dt e c s st).after ops).result ≤ Q * Spec.best d o a b := by
  rw [C23_result_is_the_account hE]
  have h0 : Between d o a b Q ⟨Q, 0, Spec.startPrice o c⟩ := ⟨⟨hQ, le_rfl⟩, hc, by simp, by simp⟩
  exact (h0.foldl hv hp).worth

/-- C67 in floats (binary64 satisfies `Accurate`): the same for prices in cents within the range of C23, for the result rounded to
cents. -/
theorem C67_between_in_range (hA : Accurate) (d : Dir) (Q : ℤ) (hQ : 0 ≤ Q) (o : ℚ) (dt : DT) (e : ℕ) (c : Option ℚ)
    (s : Option ℕ) (st : Status) (ops : List Spec.TradeOp) (P : ℚ) (hP : P ≤ 2 ^ 40) (ho : Spec.Price P o)
    (hcp : ∀ x, c = some x → Spec.Price P x) (hx : ∀ x ∈ ops, x.Priced P) (hv : ∀ x ∈ ops, x.Valid)
    (hr : ((2 * ops.length + 3 : ℕ) : ℚ) * max 1 (2 * P * Q) ≤ 2 ^ 43) (a b : ℚ)
    (hc : a ≤ Spec.startPrice o c ∧ Spec.startPrice o c ≤ b) (hp : ∀ op ∈ ops, a ≤ op.price d ∧ op.price d ≤ b) :
    let t := (Trade.new d Q (fl o) dt e (c.map fl) s st).after (ops.map Spec.TradeOp.floats)
    fl (Q * Spec.worst d o a b) ≤ rnd t.result ∧ rnd t.result ≤ fl (Q * Spec.best d o a b) := by
  intro t
  have h0 : Between d o a b Q ⟨Q, 0, Spec.startPrice o c⟩ := ⟨⟨hQ, le_rfl⟩, hc, by simp, by simp⟩
  have hw := (h0.foldl hv hp).worth
  have := (C23_result_in_range hA d Q hQ o dt e c s st ops P hP ho hcp hx hv hr).1
  have ht : rnd t.result = fl ((ops.foldl (Spec.Account.step d o) ⟨Q, 0, Spec.startPrice o c⟩).worth d o) := this
  rw [ht]
  exact ⟨fl_mono hw.1, fl_mono hw.2⟩

/-- C67: with prices that are not negative, a long trade cannot lose more than it was bought for, and a short trade cannot gain more
than it was sold for. -/
theorem C67_limited (hE : Exact) (Q : ℤ) (hQ : 0 ≤ Q) (o : ℚ) (dt : DT) (e : ℕ) (c : Option ℚ) (s : Option ℕ) (st : Status)
    (ops : List Spec.TradeOp) (hv : ∀ op ∈ ops, op.Valid) (hc : 0 ≤ Spec.startPrice o c) (d : Dir)
    (hp : ∀ op ∈ ops, 0 ≤ op.price d) :
    (d = .buy → -(Q * cent o) ≤ ((Trade.new d Q o dt e c s st).after ops).result) ∧
    (d = .sell → ((Trade.new d Q o dt e c s st).after ops).result ≤ Q * cent o) := by
  obtain ⟨B, hB1, hB2⟩ : ∃ B : ℚ, Spec.startPrice o c ≤ B ∧ ∀ op ∈ ops, op.price d ≤ B := by
    clear hp hv
    induction ops with
    | nil => exact ⟨_, le_rfl, by simp⟩
    | cons x l ih =>
      obtain ⟨B, h1, h2⟩ := ih
      refine ⟨max B (x.price d), h1.trans (le_max_left _ _), ?_⟩
      intro op hop
      rcases List.mem_cons.mp hop with rfl | hop
      · exact le_max_right _ _
      · exact (h2 op hop).trans (le_max_left _ _)
  have h := C67_between hE d Q hQ o dt e c s st ops hv 0 B ⟨hc, hB1⟩ (fun op hop => ⟨hp op hop, hB2 op hop⟩)
  constructor
  · rintro rfl
    have h1 := h.1
    simp only [Spec.worst, zero_sub, cent_neg] at h1
    linarith
  · rintro rfl
    have h1 := h.2
    simpa only [Spec.best, sub_zero] using h1

end

/-! ## Concrete cases -/

/-- C67: five units bought at 100, prices between 95 and 104.5: the result 7 lies in [-25, 22.5]. -/
example : letI := Arith.exact
    let ops : List Spec.TradeOp := [.close 97 Demo.dt (some 2), .tick ⟨Demo.dt, 95, 97⟩, .closeTick ⟨Demo.dt, 209/2, 105⟩ (some 2), .update 104]
    let t := (Trade.new .buy 5 100 Demo.dt 0 (some 99) none).after ops
    (∀ op ∈ ops, op.Valid) ∧ (∀ op ∈ ops, 95 ≤ op.price .buy ∧ op.price .buy ≤ 209/2) ∧ Spec.startPrice 100 (some 99) = 99 ∧
    t.result = 7 ∧ 5 * Spec.worst .buy 100 95 (209/2) = -25 ∧ 5 * Spec.best .buy 100 95 (209/2) = 45/2 := by
  letI := Arith.exact
  refine ⟨?_, by decide +kernel, by decide +kernel, by decide +kernel, by decide +kernel, by decide +kernel⟩
  intro op hop n hn
  simp only [List.mem_cons, List.not_mem_nil, or_false] at hop
  rcases hop with rfl | rfl | rfl | rfl <;> simp [Spec.TradeOp.request] at hn <;> omega

/-- C67 needs quantities that are not negative: closing -5 units at a loss and the rest at a gain. -/
example : letI := Arith.exact
    ((Trade.new .buy 5 100 Demo.dt 0 none none).after [.close 90 Demo.dt (some (-5)), .close 100 Demo.dt none]).result = 50 := by
  decide +kernel

end Estrade
