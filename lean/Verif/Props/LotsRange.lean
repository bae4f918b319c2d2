import Verif.Props.Lots
import Verif.Lemmas.Range

/-!
# C117 in floats
-/

set_option linter.style.haveILetI false
set_option linter.unusedSectionVars false
set_option autoImplicit false

namespace Estrade

section
variable [Arith]

/-- Spec: the trade a program holds when its prices are written down as decimals: the floats of the prices; quantities are as they are. -/
def Spec.inFloats (s : Lot) : Lot :=
  { s with closes := s.closes.map (fun c => ⟨fl c.value, c.qty⟩), openValue := fl s.openValue, curClose := fl s.curClose }

/-- Spec: prices of whole cents up to 2^17, quantities up to 2^10, and up to 2^8 closes of up to 2^11 together. -/
structure Spec.LotRange (s : Lot) : Prop where
  openCents : IsCent s.openValue
  openSize : |s.openValue| ≤ 2 ^ 17
  curCents : IsCent s.curClose
  curSize : |s.curClose| ≤ 2 ^ 17
  cents : ∀ c ∈ s.closes, IsCent c.value
  size : ∀ c ∈ s.closes, |c.value| ≤ 2 ^ 17
  qty : |s.openQty| ≤ 2 ^ 10
  qtys : (s.closes.map (fun c => |c.qty|)).sum ≤ 2 ^ 11
  count : s.closes.length ≤ 2 ^ 8

theorem Lot.avg_floats (hA : Accurate) {s : Lot} (h : Spec.LotRange s) {v : ℚ} (hv : IsCent v) (hs : |v| ≤ 2 ^ 17) :
    (Spec.inFloats s).avg (fl v) = fl (Spec.unitGain s v) ∧ IsCent (Spec.unitGain s v) ∧ |Spec.unitGain s v| ≤ 2 ^ 18 := by
  have key : ∀ {x y : ℚ}, IsCent x → IsCent y → |x| ≤ 2 ^ 17 → |y| ≤ 2 ^ 17 → rnd (fsub (fl x) (fl y)) = fl (cent (x - y)) ∧ IsCent (cent (x - y)) ∧ |cent (x - y)| ≤ 2 ^ 18 := by
    intro x y hx hy hx' hy'
    have hc : IsCent (x - y) := by
      obtain ⟨a, rfl⟩ := hx
      obtain ⟨b, rfl⟩ := hy
      exact ⟨a - b, by push_cast; ring⟩
    have hsz : |x - y| ≤ 2 ^ 18 := by
      rw [abs_le] at *
      constructor <;> linarith
    have h1 := Apx.sub hA (S := 2 ^ 18) (by norm_num) (Apx.fl hA (by norm_num) (by linarith : |x| ≤ 2 ^ 18)) (Apx.fl hA (by norm_num) (by linarith : |y| ≤ 2 ^ 18)) hsz (by norm_num)
    have h2 := h1.rnd hc (by norm_num)
    rw [hc.cent]
    exact ⟨h2, hc, hsz⟩
  unfold Lot.avg Spec.unitGain Spec.inFloats
  cases s.dir
  · exact key hv h.openCents hs h.openSize
  · exact key h.openCents hv h.openSize hs

/-- The product of the float of a gain with a quantity. -/
theorem Lot.product_floats (hA : Accurate) {g q : ℚ} (hg : |g| ≤ 2 ^ 18) (hq : |q| ≤ 2 ^ 12) :
    |fmul (fl g) q - g * q| ≤ 1 / 2 ^ 20 := by
  have h1 := hA g
  have h2 : |fl g - g| ≤ 1 / 2 ^ 34 := by
    refine h1.trans ?_
    have : |g| / 2 ^ 53 ≤ 2 ^ 18 / 2 ^ 53 := div_le_div_of_nonneg_right hg (by norm_num)
    refine le_trans (add_le_add_left this _) ?_
    norm_num
  have h3 : |fl g * q - g * q| ≤ 1 / 2 ^ 22 := by
    rw [← sub_mul, abs_mul]
    calc |fl g - g| * |q| ≤ 1 / 2 ^ 34 * 2 ^ 12 := mul_le_mul h2 hq (abs_nonneg _) (by norm_num)
      _ ≤ 1 / 2 ^ 22 := by norm_num
  have h4 : |g * q| ≤ 2 ^ 30 := by
    rw [abs_mul]
    calc |g| * |q| ≤ 2 ^ 18 * 2 ^ 12 := mul_le_mul hg hq (abs_nonneg _) (by norm_num)
      _ ≤ 2 ^ 30 := by norm_num
  have h5 : |fl g * q| ≤ 2 ^ 31 := by
    have := abs_add_le (fl g * q - g * q) (g * q)
    rw [sub_add_cancel] at this
    linarith
  have h6 := hA (fl g * q)
  have h7 : |fl g * q| / 2 ^ 53 ≤ 2 ^ 31 / 2 ^ 53 := div_le_div_of_nonneg_right h5 (by norm_num)
  have h8 : (2 : ℚ) ^ 31 / 2 ^ 53 + 1 / 2 ^ 200 + 1 / 2 ^ 22 ≤ 1 / 2 ^ 20 := by norm_num
  unfold fmul
  have h9 := abs_add_le (fl (fl g * q) - fl g * q) (fl g * q - g * q)
  rw [sub_add_sub_cancel] at h9
  linarith

theorem abs_sum_qty (l : List LotClose) : |(l.map LotClose.qty).sum| ≤ (l.map (fun c => |c.qty|)).sum := by
  induction l with
  | nil => simp
  | cons c l ih =>
    simp only [List.map_cons, List.sum_cons]
    exact (abs_add_le _ _).trans (by linarith)

theorem Spec.LotRange.one {s : Lot} (h : Spec.LotRange s) : ∀ c ∈ s.closes, |c.qty| ≤ 2 ^ 12 := by
  intro c hc
  have := List.single_le_sum (l := s.closes.map (fun c => |c.qty|)) (by
    intro x hx; obtain ⟨z, -, rfl⟩ := List.mem_map.mp hx; exact abs_nonneg _) _ (List.mem_map.mpr ⟨c, hc, rfl⟩)
  have := h.qtys
  have e : (2 : ℚ) ^ 11 ≤ 2 ^ 12 := by norm_num
  linarith

/-- The open quantity in floats. -/
theorem Lot.opened_floats (hA : Accurate) {s : Lot} (h : Spec.LotRange s) :
    |(Spec.inFloats s).openedQty - (s.openQty - (s.closes.map LotClose.qty).sum)| ≤ 1 / 2 ^ 30 ∧ |s.openQty - (s.closes.map LotClose.qty).sum| ≤ 2 ^ 12 := by
  have hsum := abs_sum_qty s.closes
  have hone := h.one
  have hb : |s.openQty - (s.closes.map LotClose.qty).sum| ≤ 2 ^ 12 := by
    have h1 := abs_sub s.openQty (s.closes.map LotClose.qty).sum
    have h2 := h.qty
    have h3 := h.qtys
    have e : (2 : ℚ) ^ 10 + 2 ^ 11 ≤ 2 ^ 12 := by norm_num
    linarith
  refine ⟨?_, hb⟩
  have hn := h.count
  have hkk : (s.closes.map (fun _ : LotClose => 0 + 1)).sum = s.closes.length := by simp
  have h1 := Apx.foldl hA (S := 2 ^ 12) (by norm_num) LotClose.qty LotClose.qty (fun _ => 0) s.closes 0 0 0 (Apx.zero (by norm_num))
    (fun c hc => ⟨by simp, hone c hc⟩) (by rw [abs_zero, zero_add]; exact h.qtys.trans (by norm_num)) (by rw [hkk]; omega)
  rw [hkk, zero_add, zero_add] at h1
  have h2 := Apx.sub hA (S := 2 ^ 12) (by norm_num) (⟨by simp, h.qty.trans (by norm_num)⟩ : Apx (2 ^ 12) 0 s.openQty s.openQty) h1 hb (by omega)
  have e : (Spec.inFloats s).openedQty = fsub s.openQty ((s.closes.map LotClose.qty).foldl fadd 0) := by
    unfold Lot.openedQty Lot.closedQty fsum Spec.inFloats
    simp [Function.comp_def]
  rw [e]
  refine h2.near.trans ?_
  have hn' : ((s.closes.length : ℕ) : ℚ) ≤ 2 ^ 8 := by exact_mod_cast hn
  push_cast
  have : ((0 : ℚ) + s.closes.length + 1) * (2 ^ 12 / 2 ^ 51) ≤ (2 ^ 8 + 1) * (2 ^ 12 / 2 ^ 51) := by
    apply mul_le_mul_of_nonneg_right _ (by norm_num)
    linarith
  exact this.trans (by norm_num)

/-- The result of the open part in floats. -/
theorem Lot.openedResult_floats (hA : Accurate) {s : Lot} (h : Spec.LotRange s) :
    |(Spec.inFloats s).openedResult - Spec.unitGain s s.curClose * (s.openQty - (s.closes.map LotClose.qty).sum)| ≤ 1 / 2 ^ 11 := by
  obtain ⟨h1, h2⟩ := Lot.opened_floats hA h
  obtain ⟨e, _, hg⟩ := Lot.avg_floats hA h h.curCents h.curSize
  set g := Spec.unitGain s s.curClose
  set R := s.openQty - (s.closes.map LotClose.qty).sum
  have e' : (Spec.inFloats s).avg (Spec.inFloats s).curClose = fl g := e
  have hgo : ∀ o : ℚ, |o - R| ≤ 1 / 2 ^ 30 → |g * o - g * R| ≤ 1 / 2 ^ 12 := by
    intro o ho
    rw [← mul_sub, abs_mul]
    calc |g| * |o - R| ≤ 2 ^ 18 * (1 / 2 ^ 30) := mul_le_mul hg ho (abs_nonneg _) (by norm_num)
      _ ≤ 1 / 2 ^ 12 := by norm_num
  have h3 := hgo _ h1
  unfold Lot.openedResult
  rw [e']
  split_ifs with hc
  · have h0 : (Spec.inFloats s).openedQty = 0 := by simpa [Lot.closed] using hc
    rw [h0, mul_zero, zero_sub, abs_neg] at h3
    rw [h0]
    unfold fmul
    rw [zero_mul, fl_zero, zero_sub, abs_neg]
    exact h3.trans (by norm_num)
  · have h5 : |(Spec.inFloats s).openedQty| ≤ 2 ^ 12 := by
      have hr : |R| ≤ 2 ^ 10 + 2 ^ 11 := by
        have := abs_sub s.openQty (s.closes.map LotClose.qty).sum
        have hsum := abs_sum_qty s.closes
        have := h.qty
        have := h.qtys
        linarith
      have := abs_add_le ((Spec.inFloats s).openedQty - R) R
      rw [sub_add_cancel] at this
      have e : (1 : ℚ) / 2 ^ 30 + (2 ^ 10 + 2 ^ 11) ≤ 2 ^ 12 := by norm_num
      linarith
    have h6 := Lot.product_floats hA hg h5
    have h7 := abs_add_le (fmul (fl g) (Spec.inFloats s).openedQty - g * (Spec.inFloats s).openedQty) (g * (Spec.inFloats s).openedQty - g * R)
    rw [sub_add_sub_cancel] at h7
    have e : (1 : ℚ) / 2 ^ 20 + 1 / 2 ^ 12 ≤ 1 / 2 ^ 11 := by norm_num
    linarith

/-- The whole cents a close in floats comes to. -/
def Lot.centsOf (s : Lot) (c : LotClose) : ℚ := cent (fmul (fl (Spec.unitGain s c.value)) c.qty)

theorem Lot.centsOf_near (hA : Accurate) {s : Lot} (h : Spec.LotRange s) {c : LotClose} (hc : c ∈ s.closes) :
    (Spec.inFloats s).closeResult ⟨fl c.value, c.qty⟩ = fl (s.centsOf c) ∧ |s.centsOf c - Spec.unitGain s c.value * c.qty| ≤ 1 / 200 + 1 / 2 ^ 20 ∧
      |s.centsOf c| ≤ 2 ^ 18 * |c.qty| + 1 / 100 := by
  obtain ⟨e, _, hg⟩ := Lot.avg_floats hA h (h.cents c hc) (h.size c hc)
  have h1 := Lot.product_floats hA hg (h.one c hc)
  have h2 := cent_abs (fmul (fl (Spec.unitGain s c.value)) c.qty)
  have h3 : |s.centsOf c - Spec.unitGain s c.value * c.qty| ≤ 1 / 200 + 1 / 2 ^ 20 := by
    rw [abs_sub_comm] at h2
    have := abs_add_le (s.centsOf c - fmul (fl (Spec.unitGain s c.value)) c.qty) (fmul (fl (Spec.unitGain s c.value)) c.qty - Spec.unitGain s c.value * c.qty)
    rw [sub_add_sub_cancel] at this
    unfold Lot.centsOf at *
    linarith
  refine ⟨?_, h3, ?_⟩
  · unfold Lot.closeResult rnd
    rw [e]
    rfl
  · have h4 : |Spec.unitGain s c.value * c.qty| ≤ 2 ^ 18 * |c.qty| := by
      rw [abs_mul]; exact mul_le_mul_of_nonneg_right hg (abs_nonneg _)
    have := abs_add_le (s.centsOf c - Spec.unitGain s c.value * c.qty) (Spec.unitGain s c.value * c.qty)
    rw [sub_add_cancel] at this
    have e : (1 : ℚ) / 200 + 1 / 2 ^ 20 ≤ 1 / 100 := by norm_num
    linarith

/-- The result of the closes in floats. -/
theorem Lot.closedResult_floats (hA : Accurate) {s : Lot} (h : Spec.LotRange s) :
    |(Spec.inFloats s).closedResult - (s.closes.map fun c => Spec.unitGain s c.value * c.qty).sum| ≤
        s.closes.length / 200 + s.closes.length / 2 ^ 20 + 1 / 2 ^ 12 ∧ |(Spec.inFloats s).closedResult| ≤ 2 ^ 31 := by
  have hn := h.count
  have hn' : ((s.closes.length : ℕ) : ℚ) ≤ 2 ^ 8 := by exact_mod_cast hn
  have hsz : ∀ l : List LotClose, (∀ c ∈ l, c ∈ s.closes) → (l.map (fun c => |s.centsOf c|)).sum ≤ 2 ^ 18 * (l.map (fun c => |c.qty|)).sum + l.length * (1 / 100) := by
    intro l hl
    induction l with
    | nil => simp
    | cons c l ih =>
      have h1 := (Lot.centsOf_near hA h (hl c (by simp))).2.2
      have h2 := ih (fun c hc => hl c (by simp [hc]))
      simp only [List.map_cons, List.sum_cons, List.length_cons]
      push_cast
      linarith
  have hnear : ∀ l : List LotClose, (∀ c ∈ l, c ∈ s.closes) →
      |(l.map s.centsOf).sum - (l.map fun c => Spec.unitGain s c.value * c.qty).sum| ≤ l.length * (1 / 200 + 1 / 2 ^ 20) := by
    intro l hl
    induction l with
    | nil => simp
    | cons c l ih =>
      have h1 := (Lot.centsOf_near hA h (hl c (by simp))).2.1
      have h2 := ih (fun c hc => hl c (by simp [hc]))
      simp only [List.map_cons, List.sum_cons, List.length_cons]
      push_cast
      rw [abs_le] at *
      constructor <;> linarith
  have hS : (s.closes.map (fun c => |s.centsOf c|)).sum ≤ 2 ^ 30 := by
    have h1 := hsz s.closes (fun c hc => hc)
    have h2 := h.qtys
    have e : (2 : ℚ) ^ 18 * 2 ^ 11 + 2 ^ 8 * (1 / 100) ≤ 2 ^ 30 := by norm_num
    have h3 : (2 : ℚ) ^ 18 * (s.closes.map (fun c => |c.qty|)).sum ≤ 2 ^ 18 * 2 ^ 11 := mul_le_mul_of_nonneg_left h2 (by norm_num)
    linarith
  have hkk : (s.closes.map (fun _ : LotClose => 1 + 1)).sum = 2 * s.closes.length := by simp [mul_comm]
  have h1 := Apx.foldl hA (S := 2 ^ 30) (by norm_num) (fun c => fl (s.centsOf c)) s.centsOf (fun _ => 1) s.closes 0 0 0 (Apx.zero (by norm_num))
    (fun c hc => Apx.fl hA (by norm_num) (by
      have := List.single_le_sum (l := s.closes.map (fun c => |s.centsOf c|)) (by
        intro x hx; obtain ⟨z, -, rfl⟩ := List.mem_map.mp hx; exact abs_nonneg _) _ (List.mem_map.mpr ⟨c, hc, rfl⟩)
      linarith)) (by rw [abs_zero, zero_add]; exact hS) (by rw [hkk]; omega)
  rw [hkk, zero_add, zero_add] at h1
  have e : (Spec.inFloats s).closedResult = (s.closes.map (fun c => fl (s.centsOf c))).foldl fadd 0 := by
    unfold Lot.closedResult fsum
    congr 1
    change (s.closes.map (fun c => (⟨fl c.value, c.qty⟩ : LotClose))).map (Spec.inFloats s).closeResult = _
    rw [List.map_map]
    exact List.map_congr_left (fun c hc => (Lot.centsOf_near hA h hc).1)
  rw [e]
  have h2 := h1.near
  have h3 : ((2 * s.closes.length : ℕ) : ℚ) * (2 ^ 30 / 2 ^ 51) ≤ 1 / 2 ^ 12 := by
    push_cast
    have : 2 * (s.closes.length : ℚ) * (2 ^ 30 / 2 ^ 51) ≤ 2 * 2 ^ 8 * (2 ^ 30 / 2 ^ 51) := by
      apply mul_le_mul_of_nonneg_right _ (by norm_num)
      linarith
    exact this.trans (by norm_num)
  have h4 := hnear s.closes (fun c hc => hc)
  constructor
  · have := abs_add_le ((s.closes.map (fun c => fl (s.centsOf c))).foldl fadd 0 - (s.closes.map s.centsOf).sum)
      ((s.closes.map s.centsOf).sum - (s.closes.map fun c => Spec.unitGain s c.value * c.qty).sum)
    rw [sub_add_sub_cancel] at this
    have e2 : (s.closes.length : ℚ) * (1 / 200 + 1 / 2 ^ 20) = s.closes.length / 200 + s.closes.length / 2 ^ 20 := by ring
    linarith
  · have := abs_add_le ((s.closes.map (fun c => fl (s.centsOf c))).foldl fadd 0 - (s.closes.map s.centsOf).sum) (s.closes.map s.centsOf).sum
    rw [sub_add_cancel] at this
    have h5 := h1.size
    have e2 : (1 : ℚ) / 2 ^ 12 + 2 ^ 30 ≤ 2 ^ 31 := by norm_num
    linarith

/-- **C117** in floats: prices of whole cents, within a range: the result is the gain up to half a cent for every close and a tenth of a cent. -/
theorem C117_half_cent_in_range (hA : Accurate) (s : Lot) (h : Spec.LotRange s) :
    |(Spec.inFloats s).result - Spec.lotGain s| ≤ s.closes.length / 200 + 1 / 1000 := by
  have h1 := Lot.openedResult_floats hA h
  obtain ⟨h2, h3⟩ := Lot.closedResult_floats hA h
  obtain ⟨_, h4⟩ := Lot.opened_floats hA h
  obtain ⟨_, _, hg⟩ := Lot.avg_floats hA h h.curCents h.curSize
  have hn' : ((s.closes.length : ℕ) : ℚ) ≤ 2 ^ 8 := by exact_mod_cast h.count
  have h5 : |(Spec.inFloats s).openedResult| ≤ 2 ^ 31 := by
    have := abs_add_le ((Spec.inFloats s).openedResult - Spec.unitGain s s.curClose * (s.openQty - (s.closes.map LotClose.qty).sum))
      (Spec.unitGain s s.curClose * (s.openQty - (s.closes.map LotClose.qty).sum))
    rw [sub_add_cancel] at this
    have h6 : |Spec.unitGain s s.curClose * (s.openQty - (s.closes.map LotClose.qty).sum)| ≤ 2 ^ 18 * 2 ^ 12 := by
      rw [abs_mul]; exact mul_le_mul hg h4 (abs_nonneg _) (by norm_num)
    have e : (1 : ℚ) / 2 ^ 11 + 2 ^ 18 * 2 ^ 12 ≤ 2 ^ 31 := by norm_num
    linarith
  have h6 : |(Spec.inFloats s).openedResult + (Spec.inFloats s).closedResult| ≤ 2 ^ 32 := by
    have := abs_add_le (Spec.inFloats s).openedResult (Spec.inFloats s).closedResult
    have e : (2 : ℚ) ^ 31 + 2 ^ 31 ≤ 2 ^ 32 := by norm_num
    linarith
  have h7 := hA ((Spec.inFloats s).openedResult + (Spec.inFloats s).closedResult)
  have h8 : |(Spec.inFloats s).openedResult + (Spec.inFloats s).closedResult| / 2 ^ 53 ≤ 2 ^ 32 / 2 ^ 53 := div_le_div_of_nonneg_right h6 (by norm_num)
  have h9 : (s.closes.length : ℚ) / 2 ^ 20 ≤ 2 ^ 8 / 2 ^ 20 := div_le_div_of_nonneg_right hn' (by norm_num)
  have e : (2 : ℚ) ^ 32 / 2 ^ 53 + 1 / 2 ^ 200 + 1 / 2 ^ 11 + 2 ^ 8 / 2 ^ 20 + 1 / 2 ^ 12 ≤ 1 / 1000 := by norm_num
  unfold Lot.result fadd Spec.lotGain
  rw [abs_le] at *
  constructor <;> linarith

end

/-- A sale of 1.5 at 10 of which 0.5 are closed at 9.87 and the rest is valued at 9.9, in binary64. -/
def Demo.halfLot : Lot := ⟨.sell, 3 / 2, [⟨987 / 100, 1 / 2⟩], 10, 99 / 10⟩

example : letI := Arith.binary64
    |(Spec.inFloats Demo.halfLot).result - 165 / 1000| ≤ 1 / 200 + 1 / 1000 ∧ (Spec.inFloats Demo.halfLot).result ≠ 165 / 1000 := by
  letI := Arith.binary64
  have h : Spec.LotRange Demo.halfLot := by
    refine ⟨⟨1000, by norm_num [Demo.halfLot]⟩, ?_, ⟨990, by norm_num [Demo.halfLot]⟩, ?_, ?_, ?_, ?_, ?_, ?_⟩
    any_goals decide +kernel
    intro c hc
    simp only [Demo.halfLot, List.mem_cons, List.not_mem_nil, or_false] at hc
    subst hc
    exact ⟨987, by norm_num⟩
  have h1 := C117_half_cent_in_range accurate_binary64 Demo.halfLot h
  have h2 : Spec.lotGain Demo.halfLot = 165 / 1000 := by decide +kernel
  have h3 : ((Demo.halfLot.closes.length : ℕ) : ℚ) = 1 := by decide +kernel
  rw [h2, h3] at h1
  exact ⟨h1, by decide +kernel⟩

end Estrade
