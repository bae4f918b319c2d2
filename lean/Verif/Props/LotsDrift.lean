import Verif.Props.Lots
import Verif.Lemmas.Range

/-!
# C116: how far fractional quantities can drift
-/

set_option linter.style.haveILetI false
set_option linter.unusedSectionVars false
set_option autoImplicit false

namespace Estrade

/-- Spec: the number of closes of a program. -/
def Spec.closeCount : List LotCmd → ℕ
  | [] => 0
  | .update _ :: l => Spec.closeCount l
  | .close _ _ :: l => Spec.closeCount l + 1

section
variable [Arith]

/-- The closed quantity is not far above that opened. -/
def Lot.Sane (q : ℚ) (t : Lot) : Prop := t.openQty = q ∧ 0 ≤ t.closedQty ∧ t.closedQty ≤ 2 * q

theorem Lot.Sane.opened (hA : Accurate) {q : ℚ} {t : Lot} (h : t.Sane q) :
    |t.openedQty - (q - t.closedQty)| ≤ q / 2 ^ 53 + 1 / 2 ^ 200 := by
  obtain ⟨h1, h2, h3⟩ := h
  have := hA (q - t.closedQty)
  have h4 : |q - t.closedQty| ≤ q := by rw [abs_le]; constructor <;> linarith
  unfold Lot.openedQty fsub
  rw [h1]
  refine this.trans ?_
  have : |q - t.closedQty| / 2 ^ 53 ≤ q / 2 ^ 53 := div_le_div_of_nonneg_right h4 (by norm_num)
  linarith

theorem Lot.Sane.closing (hA : Accurate) {q : ℚ} (hq : 1 / 2 ^ 100 ≤ q) {t : Lot} (h : t.Sane q) (v : ℚ) (x : Option ℚ)
    (h1 : t.closeQty x ≤ t.openedQty) (h2 : 0 ≤ t.closeQty x ∨ t.closeQty x = t.openedQty) :
    (t.close v x).Sane q ∧ |(t.close v x).openedQty - (t.openedQty - t.closeQty x)| ≤ q / 2 ^ 50 := by
  have ho := h.opened hA
  obtain ⟨e, hc0, hc2⟩ := h
  set o := t.openedQty
  set y := t.closeQty x
  set C := t.closedQty with hC
  have hq0 : 0 < q := lt_of_lt_of_le (by norm_num) hq
  have ht : (1 : ℚ) / 2 ^ 200 ≤ q / 2 ^ 60 := by
    have : (1 : ℚ) / 2 ^ 200 ≤ (1 / 2 ^ 100) / 2 ^ 60 := by norm_num
    refine this.trans (div_le_div_of_nonneg_right hq (by norm_num))
  have ho' := abs_le.mp ho
  have e53 : q / 2 ^ 53 = q * (1 / 2 ^ 53) := by ring
  have hlow : 0 ≤ C + y := by
    rcases h2 with h2 | h2
    · linarith
    · rw [h2]
      have : q / 2 ^ 53 + q / 2 ^ 60 ≤ q := by
        have : (1 : ℚ) / 2 ^ 53 + 1 / 2 ^ 60 ≤ 1 := by norm_num
        nlinarith
      linarith
  have hup : C + y ≤ q + q / 2 ^ 53 + q / 2 ^ 60 := by linarith
  have hcl : (t.close v x).closedQty = fl (C + y) := Lot.closedQty_close t v x
  have hf := hA (C + y)
  rw [abs_of_nonneg hlow] at hf
  have hb : (C + y) / 2 ^ 53 ≤ (2 * q) / 2 ^ 53 := by
    apply div_le_div_of_nonneg_right _ (by norm_num)
    have : (1 : ℚ) / 2 ^ 53 + 1 / 2 ^ 60 ≤ 1 := by norm_num
    nlinarith
  have hf' := abs_le.mp hf
  have hn : 0 ≤ fl (C + y) := fl_nonneg hlow
  have s : (t.close v x).Sane q := by
    refine ⟨e, by rw [hcl]; exact hn, ?_⟩
    rw [hcl]
    have : q / 2 ^ 53 + q / 2 ^ 60 + (2 * q) / 2 ^ 53 + q / 2 ^ 60 ≤ q := by
      have : (1 : ℚ) / 2 ^ 53 + 1 / 2 ^ 60 + 2 / 2 ^ 53 + 1 / 2 ^ 60 ≤ 1 := by norm_num
      nlinarith
    linarith
  refine ⟨s, ?_⟩
  have ho2 := abs_le.mp (s.opened hA)
  rw [hcl] at ho2
  have hsum : q / 2 ^ 53 + q / 2 ^ 60 + (2 * q / 2 ^ 53 + q / 2 ^ 60) + (q / 2 ^ 53 + q / 2 ^ 60) ≤ q / 2 ^ 50 := by
    have : (1 : ℚ) / 2 ^ 53 + 1 / 2 ^ 60 + (2 / 2 ^ 53 + 1 / 2 ^ 60) + (1 / 2 ^ 53 + 1 / 2 ^ 60) ≤ 1 / 2 ^ 50 := by norm_num
    nlinarith
  rw [abs_le]
  constructor <;> linarith

theorem Lot.closeQty_all (t : Lot) {x : Option ℚ} (h : x = none ∨ x = some 0) : t.closeQty x = t.openedQty := by
  rcases h with rfl | rfl <;> simp [Lot.closeQty]

theorem Lot.closeQty_some (t : Lot) {x : ℚ} (h : x ≠ 0) : t.closeQty (some x) = min t.openedQty x := by
  unfold Lot.closeQty
  simp only [if_neg h]
  split_ifs with h1
  · rw [min_eq_left h1.le]
  · rw [min_eq_right (not_lt.mp h1)]

theorem Lot.drift_exec (hA : Accurate) {q : ℚ} (hq : 1 / 2 ^ 100 ≤ q) {t : Lot} (h : t.Sane q) {r e : ℚ} (_hr : 0 ≤ r) (he : |t.openedQty - r| ≤ e)
    (v : ℚ) {x : Option ℚ} (hx : ∀ y, x = some y → 0 ≤ y) :
    ∃ r', 0 ≤ r' ∧ (∀ l, Spec.restOf r (.close v x :: l) = Spec.restOf r' l) ∧ (t.close v x).Sane q ∧ |(t.close v x).openedQty - r'| ≤ e + q / 2 ^ 50 := by
  have he0 : 0 ≤ e := (abs_nonneg _).trans he
  have all : (x = none ∨ x = some 0) → (t.close v x).Sane q ∧ |(t.close v x).openedQty - 0| ≤ e + q / 2 ^ 50 := by
    intro hx'
    have e1 := t.closeQty_all hx'
    obtain ⟨s, hd⟩ := h.closing hA hq v x e1.le (.inr e1)
    rw [e1, sub_self] at hd
    exact ⟨s, by linarith⟩
  match x, hx with
  | none, _ => exact ⟨0, le_rfl, fun l => rfl, all (.inl rfl)⟩
  | some y, hx =>
    by_cases hy : y = 0
    · subst hy
      exact ⟨0, le_rfl, fun l => by simp [Spec.restOf], all (.inr rfl)⟩
    · have e1 := t.closeQty_some hy
      have hy0 := hx y rfl
      obtain ⟨s, hd⟩ := h.closing hA hq v (some y) (by rw [e1]; exact min_le_left _ _) (by
        rw [e1]
        rcases min_cases t.openedQty y with ⟨h1, _⟩ | ⟨h1, _⟩
        · exact .inr h1
        · rw [h1]; exact .inl hy0)
      refine ⟨max 0 (r - y), le_max_left _ _, fun l => by rw [Spec.restOf, if_neg hy], s, ?_⟩
      rw [e1] at hd
      have hmm : t.openedQty - min t.openedQty y = max 0 (t.openedQty - y) := by
        rcases le_total t.openedQty y with h1 | h1
        · rw [min_eq_left h1, max_eq_left (by linarith), sub_self]
        · rw [min_eq_right h1, max_eq_right (by linarith)]
      rw [hmm] at hd
      have h3 : |max 0 (t.openedQty - y) - max 0 (r - y)| ≤ e := by
        refine le_trans ?_ he
        rcases le_total (t.openedQty - y) 0 with h1 | h1 <;> rcases le_total (r - y) 0 with h2 | h2
        · rw [max_eq_left h1, max_eq_left h2]; simp
        · rw [max_eq_left h1, max_eq_right h2, abs_le]
          have := neg_abs_le (t.openedQty - r)
          have := abs_nonneg (t.openedQty - r)
          constructor <;> linarith
        · rw [max_eq_right h1, max_eq_left h2, abs_le]
          have := le_abs_self (t.openedQty - r)
          have := abs_nonneg (t.openedQty - r)
          constructor <;> linarith
        · rw [max_eq_right h1, max_eq_right h2]
          refine le_of_eq ?_
          congr 1; ring
      rw [abs_le] at *
      constructor <;> linarith

theorem Lot.drift_run (hA : Accurate) {q : ℚ} (hq : 1 / 2 ^ 100 ≤ q) (l : List LotCmd) :
    ∀ {t : Lot} {r e : ℚ}, t.Sane q → 0 ≤ r → |t.openedQty - r| ≤ e → (∀ v x, LotCmd.close v (some x) ∈ l → 0 ≤ x) →
      |(t.run l).openedQty - Spec.restOf r l| ≤ e + Spec.closeCount l * (q / 2 ^ 50) := by
  induction l with
  | nil => intro t r e _ _ h _; simpa [Lot.run, Spec.restOf, Spec.closeCount] using h
  | cons k l ih =>
    intro t r e hs hr he hl
    have hl' : ∀ v x, LotCmd.close v (some x) ∈ l → 0 ≤ x := fun v x hm => hl v x (by simp [hm])
    cases k with
    | update v =>
      have h1 : (t.update v).closedQty = t.closedQty ∧ (t.update v).openQty = t.openQty := by
        unfold Lot.update; split_ifs <;> exact ⟨rfl, rfl⟩
      have hs' : (t.update v).Sane q := by unfold Lot.Sane; rw [h1.1, h1.2]; exact hs
      have ho : (t.update v).openedQty = t.openedQty := by unfold Lot.openedQty; rw [h1.1, h1.2]
      exact ih (t := t.update v) hs' hr (by rw [ho]; exact he) hl'
    | close v x =>
      obtain ⟨r', hr', e1, s, hd⟩ := Lot.drift_exec hA hq hs hr he v (x := x) (fun y hy => hl v y (by simp [hy]))
      have := ih s hr' hd hl'
      rw [e1, Spec.closeCount]
      change |((t.close v x).run l).openedQty - _| ≤ _
      push_cast
      linarith

/-- **C116** in floats: what is open differs from what remains by at most the 2^-50th part of the quantity opened for each close. -/
theorem C116_drift (hA : Accurate) (d : Dir) (q v : ℚ) (l : List LotCmd) (hq : 1 / 2 ^ 100 ≤ q) (hf : fl q = q)
    (hl : ∀ v x, LotCmd.close v (some x) ∈ l → 0 ≤ x) :
    |((Lot.new d q v).run l).openedQty - Spec.restOf q l| ≤ Spec.closeCount l * (q / 2 ^ 50) := by
  have hq0 : (0 : ℚ) ≤ q := le_trans (by norm_num) hq
  have hc : (Lot.new d q v).closedQty = 0 := rfl
  have ho : (Lot.new d q v).openedQty = q := by
    unfold Lot.openedQty fsub; rw [hc, sub_zero]; exact hf
  have := Lot.drift_run hA hq l (t := Lot.new d q v) (r := q) (e := 0) ⟨rfl, hc.ge, by rw [hc]; linarith⟩ hq0 (by rw [ho]; simp) hl
  linarith

/-- So the claim holds of floats up to a tolerance: what is open when nothing remains, and what remains when the trade is closed, is at most that part. -/
theorem C116_tolerance_partial (hA : Accurate) (d : Dir) (q v : ℚ) (l : List LotCmd) (hq : 1 / 2 ^ 100 ≤ q) (hf : fl q = q)
    (hl : ∀ v x, LotCmd.close v (some x) ∈ l → 0 ≤ x) :
    (Spec.restOf q l = 0 → |((Lot.new d q v).run l).openedQty| ≤ Spec.closeCount l * (q / 2 ^ 50)) ∧
      (((Lot.new d q v).run l).closed = true → |Spec.restOf q l| ≤ Spec.closeCount l * (q / 2 ^ 50)) := by
  have h := C116_drift hA d q v l hq hf hl
  refine ⟨fun h0 => by rwa [h0, sub_zero] at h, fun hc => ?_⟩
  have h0 : ((Lot.new d q v).run l).openedQty = 0 := by simpa [Lot.closed] using hc
  rwa [h0, zero_sub, abs_neg] at h

end

/-- The trade of 0.8 in binary64, closed by tenths: the error of 2^-53 is within eight times 0.8 / 2^50. -/
example : letI := Arith.binary64
    |((Lot.new .buy (fl (8 / 10)) 1).run Demo.tenths).openedQty - Spec.restOf (fl (8 / 10)) Demo.tenths| ≤ 8 * (fl (8 / 10) / 2 ^ 50) := by
  letI := Arith.binary64
  refine C116_drift accurate_binary64 .buy (fl (8 / 10)) 1 Demo.tenths (by decide +kernel) (by decide +kernel) (fun v x h => ?_)
  exact (C116_tenths_false.1.2 v x h).1.le

/-- A trade of 0.3 of which 0.1 and then 0.2 are closed: the second request exceeds what the floats show, and is clamped; both statements have their hypotheses. -/
example : letI := Arith.binary64
    ((Lot.new .buy (fl (3 / 10)) 1).run [.close 1 (some (fl (1 / 10))), .close 1 (some (fl (2 / 10)))]).closed = true ∧
    Spec.restOf (fl (3 / 10)) [.close 1 (some (fl (1 / 10))), .close 1 (some (fl (2 / 10)))] = 0 := by
  letI := Arith.binary64
  refine ⟨?_, ?_⟩ <;> decide +kernel

end Estrade
