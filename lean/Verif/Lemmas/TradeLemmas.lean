import Verif.Trade
import Verif.Lemmas.Round

/-! # Lemmas on trades -/

set_option linter.unusedSectionVars false
set_option autoImplicit false

namespace Estrade

section
variable [Arith]

theorem fsum_append (l : List ℚ) (x : ℚ) : fsum (l ++ [x]) = fadd (fsum l) x := by
  unfold fsum; rw [List.foldl_append]; rfl

theorem foldl_fl (l : List ℚ) (a : ℚ) (ha : fl a = a) : fl (l.foldl fadd a) = l.foldl fadd a := by
  induction l generalizing a with
  | nil => exact ha
  | cons x l ih => exact ih _ (fl_idem _)

theorem fl_fsum (l : List ℚ) : fl (fsum l) = fsum l := foldl_fl l 0 fl_zero

theorem fadd_zero_left {x : ℚ} (h : fl x = x) : fadd 0 x = x := by unfold fadd; rw [zero_add, h]
theorem fadd_zero_right {x : ℚ} (h : fl x = x) : fadd x 0 = x := by unfold fadd; rw [add_zero, h]
theorem fmul_zero_left (x : ℚ) : fmul 0 x = 0 := by unfold fmul; rw [zero_mul, fl_zero]
theorem fmul_zero_right (x : ℚ) : fmul x 0 = 0 := by unfold fmul; rw [mul_zero, fl_zero]
theorem fmul_neg_left (x y : ℚ) : fmul (-x) y = - fmul x y := by
  unfold fmul; rw [neg_mul, fl_neg]

namespace Trade

variable (t : Trade)

@[simp] theorem updateMinMax_openQty : t.updateMinMax.openQty = t.openQty := by
  unfold updateMinMax; dsimp only; split_ifs <;> rfl
@[simp] theorem updateMinMax_closes : t.updateMinMax.closes = t.closes := by
  unfold updateMinMax; dsimp only; split_ifs <;> rfl
@[simp] theorem updateMinMax_dir : t.updateMinMax.dir = t.dir := by
  unfold updateMinMax; dsimp only; split_ifs <;> rfl
@[simp] theorem updateMinMax_openValue : t.updateMinMax.openValue = t.openValue := by
  unfold updateMinMax; dsimp only; split_ifs <;> rfl
@[simp] theorem updateMinMax_curClose : t.updateMinMax.curClose = t.curClose := by
  unfold updateMinMax; dsimp only; split_ifs <;> rfl

/-- The result depends only on direction, quantity, closes, open value and current value. -/
theorem result_congr {t t' : Trade} (h1 : t.dir = t'.dir) (h2 : t.openQty = t'.openQty)
    (h3 : t.closes = t'.closes) (h4 : t.openValue = t'.openValue) (h5 : t.curClose = t'.curClose) :
    t.result = t'.result := by
  obtain ⟨_, _, d, q, cl, o, c, _, _, _, _⟩ := t
  obtain ⟨_, _, d', q', cl', o', c', _, _, _, _⟩ := t'
  dsimp only at h1 h2 h3 h4 h5
  subst h1 h2 h3 h4 h5
  rfl

@[simp] theorem updateMinMax_result : t.updateMinMax.result = t.result :=
  result_congr (by simp) (by simp) (by simp) (by simp) (by simp)

theorem updateMinMax_maxRes : t.updateMinMax.maxRes = max t.maxRes t.result := by
  unfold updateMinMax
  rcases lt_or_ge t.maxRes t.result with h | h
  · rw [if_pos h, max_eq_right h.le]; dsimp only; split_ifs <;> rfl
  · rw [if_neg (not_lt.mpr h), max_eq_left h]; dsimp only; split_ifs <;> rfl

theorem updateMinMax_minRes : t.updateMinMax.minRes = min t.minRes t.result := by
  unfold updateMinMax
  rcases lt_or_ge t.maxRes t.result with h | h
  · rw [if_pos h]; dsimp only
    have e : ({ t with maxRes := t.result } : Trade).result = t.result :=
      result_congr rfl rfl rfl rfl rfl
    rw [e]
    split_ifs with h'
    · exact (min_eq_right h'.le).symm
    · exact (min_eq_left (not_lt.mp h')).symm
  · rw [if_neg (not_lt.mpr h)]; dsimp only
    split_ifs with h'
    · exact (min_eq_right h'.le).symm
    · exact (min_eq_left (not_lt.mp h')).symm

theorem update_closed (h : t.closed = true) (v : ℚ) : t.update v = t := by
  unfold update; rw [if_pos h]

theorem updateFromTick_closed (h : t.closed = true) (k : Tick) : t.updateFromTick k = t :=
  update_closed t h _

@[simp] theorem update_openQty (v : ℚ) : (t.update v).openQty = t.openQty := by
  unfold update; split_ifs <;> simp
@[simp] theorem update_closes (v : ℚ) : (t.update v).closes = t.closes := by
  unfold update; split_ifs <;> simp
@[simp] theorem update_dir (v : ℚ) : (t.update v).dir = t.dir := by
  unfold update; split_ifs <;> simp
@[simp] theorem update_openValue (v : ℚ) : (t.update v).openValue = t.openValue := by
  unfold update; split_ifs <;> simp
@[simp] theorem update_closedQty (v : ℚ) : (t.update v).closedQty = t.closedQty := by
  unfold closedQty; simp
@[simp] theorem update_openedQty (v : ℚ) : (t.update v).openedQty = t.openedQty := by
  unfold openedQty; simp
@[simp] theorem update_closeQty (v : ℚ) (q : Option ℤ) : (t.update v).closeQty q = t.closeQty q := by
  unfold closeQty; simp
theorem update_curClose (v : ℚ) :
    (t.update v).curClose = if t.closed then t.curClose else v := by
  unfold update; split_ifs <;> simp

@[simp] theorem close_openQty (v : ℚ) (d : DT) (q : Option ℤ) : (t.close v d q).openQty = t.openQty := rfl
@[simp] theorem close_dir (v : ℚ) (d : DT) (q : Option ℤ) : (t.close v d q).dir = t.dir := rfl
@[simp] theorem close_openValue (v : ℚ) (d : DT) (q : Option ℤ) :
    (t.close v d q).openValue = t.openValue := rfl
@[simp] theorem close_curClose (v : ℚ) (d : DT) (q : Option ℤ) :
    (t.close v d q).curClose = t.curClose := rfl
@[simp] theorem close_maxRes (v : ℚ) (d : DT) (q : Option ℤ) : (t.close v d q).maxRes = t.maxRes := rfl
@[simp] theorem close_minRes (v : ℚ) (d : DT) (q : Option ℤ) : (t.close v d q).minRes = t.minRes := rfl
@[simp] theorem close_closedQty (v : ℚ) (d : DT) (q : Option ℤ) :
    (t.close v d q).closedQty = t.closedQty + t.closeQty q := by
  unfold close closedQty; simp
@[simp] theorem close_openedQty (v : ℚ) (d : DT) (q : Option ℤ) :
    (t.close v d q).openedQty = t.openedQty - t.closeQty q := by
  unfold openedQty; rw [close_closedQty, close_openQty]; ring

theorem closed_iff : t.closed = true ↔ t.openedQty = 0 := by unfold closed; simp

theorem closeQty_none : t.closeQty none = t.openedQty := by unfold closeQty; simp
theorem closeQty_zero : t.closeQty (some 0) = t.openedQty := by unfold closeQty; simp
theorem closeQty_of_ne {n : ℤ} (h : n ≠ 0) : t.closeQty (some n) = min n t.openedQty := by
  unfold closeQty
  simp only [if_neg h]
  split_ifs with h'
  · exact (min_eq_right h'.le).symm
  · exact (min_eq_left (not_lt.mp h')).symm

theorem closeQty_bounds {t : Trade} (h : 0 ≤ t.openedQty) {q : Option ℤ}
    (hq : ∀ n, q = some n → 0 ≤ n) : 0 ≤ t.closeQty q ∧ t.closeQty q ≤ t.openedQty := by
  rcases q with _ | n
  · rw [closeQty_none]; exact ⟨h, le_refl _⟩
  · have := hq n rfl
    by_cases hn : n = 0
    · subst hn; rw [closeQty_zero]; exact ⟨h, le_refl _⟩
    · rw [closeQty_of_ne _ hn]; exact ⟨le_min this h, min_le_right _ _⟩

end Trade
end
end Estrade
