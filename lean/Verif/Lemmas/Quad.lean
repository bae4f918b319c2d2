import Verif.Float64
import Mathlib.Tactic.FieldSimp

/-!
# Means of four floats in binary64

Adding a float three times to itself gives exactly four times the float in binary64, although the intermediate
result `3x` is rounded; so the mean of four floats computed from left to right stays between the smallest and
largest of them.
-/

set_option autoImplicit false
set_option linter.unusedSectionVars false

namespace Estrade

/-- `x + x + x + x`, computed in floats, is exactly `4x`. -/
def Quad [Arith] : Prop := ∀ x, fl x = x → fadd (fadd (fadd x x) x) x = 4 * x

theorem quad_exact : @Quad Arith.exact := by
  intro x _
  change x + x + x + x = 4 * x
  ring

/-- Half-even rounding of half an integer. -/
theorem rhe_half (V : ℤ) : V = 2 * rhe ((V : ℚ) / 2) ∨
    (V = 2 * rhe ((V : ℚ) / 2) + 1 ∨ V = 2 * rhe ((V : ℚ) / 2) - 1) ∧ rhe ((V : ℚ) / 2) % 2 = 0 := by
  obtain ⟨k, hk | hk⟩ : ∃ k, V = 2 * k ∨ V = 2 * k + 1 := ⟨V / 2, by omega⟩
  · left
    have : (V : ℚ) / 2 = (k : ℚ) := by rw [hk]; push_cast; ring
    rw [this, rhe_int, hk]
  · right
    have h1 : (V : ℚ) / 2 = (k : ℚ) + 1 / 2 := by rw [hk]; push_cast; ring
    have h2 : ⌊(k : ℚ) + 1 / 2⌋ = k := by
      rw [Int.floor_eq_iff]; constructor <;> linarith
    rw [h1]
    unfold rhe
    rw [h2]
    have h3 : (k : ℚ) + 1 / 2 - k = 1 / 2 := by ring
    rw [h3, if_neg (lt_irrefl _), if_neg (lt_irrefl _)]
    split_ifs <;> omega

/-- Half-even rounding of a quarter of an integer. -/
theorem rhe_quarter (V : ℤ) : (V = 4 * rhe ((V : ℚ) / 4) ∨ V = 4 * rhe ((V : ℚ) / 4) + 1 ∨
      V = 4 * rhe ((V : ℚ) / 4) - 1) ∨
    (V = 4 * rhe ((V : ℚ) / 4) + 2 ∨ V = 4 * rhe ((V : ℚ) / 4) - 2) ∧ rhe ((V : ℚ) / 4) % 2 = 0 := by
  obtain ⟨k, r, hr0, hr3, hk⟩ : ∃ k r : ℤ, 0 ≤ r ∧ r ≤ 3 ∧ V = 4 * k + r := ⟨V / 4, V % 4, by omega⟩
  have h1 : (V : ℚ) / 4 = (k : ℚ) + r / 4 := by rw [hk]; push_cast; ring
  have hr0' : (0 : ℚ) ≤ r := by exact_mod_cast hr0
  have hr3' : (r : ℚ) ≤ 3 := by exact_mod_cast hr3
  have h2 : ⌊(k : ℚ) + r / 4⌋ = k := by
    rw [Int.floor_eq_iff]; constructor <;> linarith
  rw [h1]
  unfold rhe
  rw [h2]
  have h3 : (k : ℚ) + r / 4 - k = r / 4 := by ring
  rw [h3]
  split_ifs with c1 c2 c3
  · have : (r : ℚ) < 2 := by linarith
    have : r < 2 := by exact_mod_cast this
    omega
  · have : (2 : ℚ) < r := by linarith
    have : 2 < r := by exact_mod_cast this
    omega
  · have e : (r : ℚ) = 2 := le_antisymm (by linarith) (by linarith)
    have : r = 2 := by exact_mod_cast e
    omega
  · have e : (r : ℚ) = 2 := le_antisymm (by linarith) (by linarith)
    have : r = 2 := by exact_mod_cast e
    omega

/-- The exponent of a number with known leading bit. -/
theorem ulpExp_of_range {V : ℚ} {e : ℤ} {j : ℕ} (he : -1074 ≤ e) (h1 : 2 ^ (52 + j) ≤ V) (h2 : V < 2 ^ (53 + j)) :
    ulpExp (V * 2 ^ e) = e + j := by
  have hp : (0 : ℚ) < 2 ^ e := zpow_pos (by norm_num) _
  have hV : 0 < V := lt_of_lt_of_le (by positivity) h1
  have hx : 0 < V * 2 ^ e := mul_pos hV hp
  unfold ulpExp
  rw [if_neg hx.ne', abs_of_pos hx]
  have hlog : Int.log 2 (V * 2 ^ e) = 52 + j + e := by
    apply le_antisymm
    · have : Int.log 2 (V * 2 ^ e) < 53 + j + e := by
        rw [← Int.lt_zpow_iff_log_lt (by norm_num) hx]
        calc V * 2 ^ e < 2 ^ (53 + j) * 2 ^ e := mul_lt_mul_of_pos_right h2 hp
          _ = _ := by
            rw [← zpow_natCast, ← zpow_add₀ (by norm_num)]; push_cast; rfl
      omega
    · rw [← Int.zpow_le_iff_le_log (by norm_num) hx]
      calc ((2 : ℕ) : ℚ) ^ (52 + (j : ℤ) + e) = 2 ^ (52 + j) * 2 ^ e := by
            rw [← zpow_natCast, ← zpow_add₀ (by norm_num)]; push_cast; rfl
        _ ≤ V * 2 ^ e := mul_le_mul_of_nonneg_right h1 hp.le
  rw [hlog]
  have : (0 : ℤ) ≤ j := by positivity
  rw [max_eq_left (by omega)]
  omega

theorem fl64_of_range {V : ℚ} {e : ℤ} {j : ℕ} (he : -1074 ≤ e) (h1 : 2 ^ (52 + j) ≤ V) (h2 : V < 2 ^ (53 + j)) :
    fl64 (V * 2 ^ e) = (rhe (V / 2 ^ j) * 2 ^ j : ℚ) * 2 ^ e := by
  unfold fl64
  rw [ulpExp_of_range he h1 h2, zpow_add₀ (by norm_num), zpow_natCast]
  have hp : (2 : ℚ) ^ e ≠ 0 := (zpow_pos (by norm_num) _).ne'
  have : V * 2 ^ e / (2 ^ e * 2 ^ j) = V / 2 ^ j := by
    rw [mul_comm V, mul_div_mul_left _ _ hp]
  rw [this]; ring

/-- Integers of at most 53 bits times a power of two are floats. -/
theorem fl64_rep {m k : ℤ} (hm : |m| ≤ 2 ^ 53) (hk : -1074 ≤ k) : fl64 ((m : ℚ) * 2 ^ k) = m * 2 ^ k := by
  have hp : (0 : ℚ) < 2 ^ k := zpow_pos (by norm_num) _
  suffices ∃ n : ℤ, (m : ℚ) * 2 ^ k = n * 2 ^ ulpExp ((m : ℚ) * 2 ^ k) by
    obtain ⟨n, hn⟩ := this
    have h1 := fl64_nearest_multiple ((m : ℚ) * 2 ^ k) n
    rw [← hn, sub_self, abs_zero, abs_nonpos_iff, sub_eq_zero] at h1
    exact h1
  rcases le_or_gt (ulpExp ((m : ℚ) * 2 ^ k)) k with he | he
  · refine ⟨m * 2 ^ (k - ulpExp ((m : ℚ) * 2 ^ k)).toNat, ?_⟩
    push_cast
    rw [mul_assoc, ← zpow_natCast (2 : ℚ), ← zpow_add₀ (by norm_num)]
    congr 2
    omega
  · have h1 := ulp_le_abs ((m : ℚ) * 2 ^ k) (by omega)
    rw [abs_mul, abs_of_pos hp] at h1
    have hm' : |(m : ℚ)| ≤ 2 ^ 53 := by exact_mod_cast hm
    have h2 : (2 : ℚ) ^ ulpExp ((m : ℚ) * 2 ^ k) ≤ 2 ^ (k + 1) := by
      have h3 : (2 : ℚ) ^ 52 * 2 ^ ulpExp ((m : ℚ) * 2 ^ k) ≤ 2 ^ 52 * 2 ^ (k + 1) := by
        refine h1.trans ((mul_le_mul_of_nonneg_right hm' hp.le).trans (le_of_eq ?_))
        rw [zpow_add₀ (by norm_num)]; ring
      exact le_of_mul_le_mul_left h3 (by norm_num)
    have h3 := (zpow_le_zpow_iff_right₀ (by norm_num : (1 : ℚ) < 2)).mp h2
    have h4 : ulpExp ((m : ℚ) * 2 ^ k) = k + 1 := by omega
    rw [h4, zpow_add₀ (by norm_num)] at h1
    rw [h4, zpow_add₀ (by norm_num)]
    have h5 : |(m : ℚ)| = 2 ^ 53 := by
      refine le_antisymm hm' ?_
      have : (2 : ℚ) ^ 53 * 2 ^ k ≤ |(m : ℚ)| * 2 ^ k := by
        refine le_trans (le_of_eq ?_) h1; ring
      exact le_of_mul_le_mul_right this hp
    rcases abs_cases (m : ℚ) with ⟨e, _⟩ | ⟨e, _⟩
    · exact ⟨2 ^ 52, by rw [e] at h5; rw [h5]; push_cast; ring⟩
    · refine ⟨-2 ^ 52, ?_⟩
      have : (m : ℚ) = - 2 ^ 53 := by rw [e] at h5; linarith
      rw [this]; push_cast; ring

/-- A float is an integer of less than 54 bits times a power of two. -/
theorem fl64_form {x : ℚ} (h : fl64 x = x) : ∃ X e : ℤ, x = X * 2 ^ e ∧ -1074 ≤ e ∧ |X| < 2 ^ 53 := by
  refine ⟨rhe (x / 2 ^ ulpExp x), ulpExp x, h.symm, ulpExp_ge x, ?_⟩
  have hp : (0 : ℚ) < 2 ^ ulpExp x := zpow_pos (by norm_num) _
  have h1 := abs_lt_ulp x
  have h2 : |(rhe (x / 2 ^ ulpExp x) : ℚ)| * 2 ^ ulpExp x = |x| := by
    conv_rhs => rw [← h]
    unfold fl64
    rw [abs_mul, abs_of_pos hp]
  rw [← h2] at h1
  have := lt_of_mul_lt_mul_right h1 hp.le
  exact_mod_cast this

theorem quad_pos {X e : ℤ} (he : -1074 ≤ e) (h0 : 0 ≤ X) (hX : X < 2 ^ 53) :
    fl64 (fl64 (fl64 ((X : ℚ) * 2 ^ e + X * 2 ^ e) + X * 2 ^ e) + X * 2 ^ e) = 4 * (X * 2 ^ e) := by
  have e2 : fl64 ((X : ℚ) * 2 ^ e + X * 2 ^ e) = 2 * (X * 2 ^ e) := by
    have : (X : ℚ) * 2 ^ e + X * 2 ^ e = X * 2 ^ (e + 1) := by rw [zpow_add₀ (by norm_num)]; ring
    rw [this, fl64_rep (by rw [abs_of_nonneg h0]; omega) (by omega), zpow_add₀ (by norm_num)]; ring
  have e4 : fl64 ((X : ℚ) * 2 ^ (e + 2)) = X * 2 ^ (e + 2) :=
    fl64_rep (by rw [abs_of_nonneg h0]; omega) (by omega)
  rw [e2, show 2 * ((X : ℚ) * 2 ^ e) + X * 2 ^ e = ((3 * X : ℤ) : ℚ) * 2 ^ e by push_cast; ring]
  rcases le_or_gt (3 * X) (2 ^ 53) with h3 | h3
  · rw [fl64_rep (by rw [abs_of_nonneg (by omega)]; exact h3) he,
      show ((3 * X : ℤ) : ℚ) * 2 ^ e + X * 2 ^ e = X * 2 ^ (e + 2) by
        rw [zpow_add₀ (by norm_num)]; push_cast; ring, e4, zpow_add₀ (by norm_num)]
    ring
  -- the two roundings
  have step : ∀ Y : ℤ, (2 ^ 53 < Y + X ∧ Y + X < 2 ^ 55) →
      (Y + X < 2 ^ 54 → 2 * rhe (((Y + X : ℤ) : ℚ) / 2) = 4 * X) →
      (2 ^ 54 ≤ Y + X → 4 * rhe (((Y + X : ℤ) : ℚ) / 4) = 4 * X) →
      fl64 ((Y : ℚ) * 2 ^ e + X * 2 ^ e) = 4 * (X * 2 ^ e) := by
    intro Y hb k1 k2
    rw [show (Y : ℚ) * 2 ^ e + X * 2 ^ e = ((Y + X : ℤ) : ℚ) * 2 ^ e by push_cast; ring]
    rcases lt_or_ge (Y + X) (2 ^ 54) with hl | hl
    · have hl' : ((Y + X : ℤ) : ℚ) < 2 ^ (53 + 1) := by exact_mod_cast hl
      have hg' : (2 : ℚ) ^ (52 + 1) ≤ ((Y + X : ℤ) : ℚ) := by exact_mod_cast hb.1.le
      rw [fl64_of_range (j := 1) he hg' hl', pow_one]
      have : (2 : ℚ) * rhe (((Y + X : ℤ) : ℚ) / 2) = 4 * X := by exact_mod_cast k1 hl
      rw [mul_comm (rhe _ : ℚ), this]; ring
    · have hl' : ((Y + X : ℤ) : ℚ) < 2 ^ (53 + 2) := by exact_mod_cast hb.2
      have hg' : (2 : ℚ) ^ (52 + 2) ≤ ((Y + X : ℤ) : ℚ) := by exact_mod_cast hl
      rw [fl64_of_range (j := 2) he hg' hl', show (2 : ℚ) ^ 2 = 4 by norm_num]
      have : (4 : ℚ) * rhe (((Y + X : ℤ) : ℚ) / 4) = 4 * X := by exact_mod_cast k2 hl
      rw [mul_comm (rhe _ : ℚ), this]; ring
  rcases lt_or_ge (3 * X) (2 ^ 54) with hl | hl
  · have hl' : ((3 * X : ℤ) : ℚ) < 2 ^ (53 + 1) := by exact_mod_cast hl
    have hg' : (2 : ℚ) ^ (52 + 1) ≤ ((3 * X : ℤ) : ℚ) := by exact_mod_cast h3.le
    rw [fl64_of_range (j := 1) he hg' hl', pow_one]
    have hr := rhe_half (3 * X)
    generalize rhe (((3 * X : ℤ) : ℚ) / 2) = k at hr
    rw [show (k : ℚ) * 2 * 2 ^ e = ((k * 2 : ℤ) : ℚ) * 2 ^ e by push_cast; ring]
    have hh := rhe_half (k * 2 + X)
    have hq := rhe_quarter (k * 2 + X)
    apply step (k * 2)
    · omega
    · intro _
      generalize rhe (((k * 2 + X : ℤ) : ℚ) / 2) = a at hh ⊢
      omega
    · intro _
      generalize rhe (((k * 2 + X : ℤ) : ℚ) / 4) = a at hq ⊢
      omega
  · have hl' : ((3 * X : ℤ) : ℚ) < 2 ^ (53 + 2) := by
      have : 3 * X < 2 ^ 55 := by omega
      exact_mod_cast this
    have hg' : (2 : ℚ) ^ (52 + 2) ≤ ((3 * X : ℤ) : ℚ) := by exact_mod_cast hl
    rw [fl64_of_range (j := 2) he hg' hl', show (2 : ℚ) ^ 2 = 4 by norm_num]
    have hr := rhe_quarter (3 * X)
    generalize rhe (((3 * X : ℤ) : ℚ) / 4) = k at hr
    rw [show (k : ℚ) * 4 * 2 ^ e = ((k * 4 : ℤ) : ℚ) * 2 ^ e by push_cast; ring]
    have hh := rhe_half (k * 4 + X)
    have hq := rhe_quarter (k * 4 + X)
    apply step (k * 4)
    · omega
    · intro _
      generalize rhe (((k * 4 + X : ℤ) : ℚ) / 2) = a at hh ⊢
      omega
    · intro _
      generalize rhe (((k * 4 + X : ℤ) : ℚ) / 4) = a at hq ⊢
      omega

theorem quad_binary64 : @Quad Arith.binary64 := by
  intro x hx
  change fl64 (fl64 (fl64 (x + x) + x) + x) = 4 * x
  have hx : fl64 x = x := hx
  obtain ⟨X, e, rfl, he, hX⟩ := fl64_form hx
  rcases le_total 0 X with h | h
  · exact quad_pos he h (by rwa [abs_of_nonneg h] at hX)
  · have := quad_pos (X := -X) he (by omega) (by rwa [abs_of_nonpos h] at hX)
    push_cast at this
    have key : ∀ y : ℚ, fl64 (y + (-(X : ℚ)) * 2 ^ e) = - fl64 (-y + X * 2 ^ e) := by
      intro y
      rw [← fl64_neg]
      congr 1
      ring
    rw [key, key, key] at this
    simp only [neg_neg] at this
    rw [show -(-(X : ℚ) * 2 ^ e) = X * 2 ^ e by ring] at this
    linarith

section
variable [Arith]

/-- The mean of four floats, computed from left to right, is at most any float that bounds them. -/
theorem mean4_le (hQ : Quad) {a b c d H : ℚ} (hH : fl H = H) (h1 : a ≤ H) (h2 : b ≤ H) (h3 : c ≤ H) (h4 : d ≤ H) :
    fdiv (fadd (fadd (fadd a b) c) d) 4 ≤ H := by
  have h : fadd (fadd (fadd a b) c) d ≤ 4 * H := by
    rw [← hQ H hH]
    unfold fadd
    exact fl_mono (add_le_add (fl_mono (add_le_add (fl_mono (add_le_add h1 h2)) h3)) h4)
  conv_rhs => rw [← hH]
  unfold fdiv
  exact fl_mono (by linarith)

theorem le_mean4 (hQ : Quad) {a b c d L : ℚ} (hL : fl L = L) (h1 : L ≤ a) (h2 : L ≤ b) (h3 : L ≤ c) (h4 : L ≤ d) :
    L ≤ fdiv (fadd (fadd (fadd a b) c) d) 4 := by
  have h : 4 * L ≤ fadd (fadd (fadd a b) c) d := by
    rw [← hQ L hL]
    unfold fadd
    exact fl_mono (add_le_add (fl_mono (add_le_add (fl_mono (add_le_add h1 h2)) h3)) h4)
  conv_lhs => rw [← hL]
  unfold fdiv
  exact fl_mono (by linarith)

end

end Estrade
