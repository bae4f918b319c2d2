import Verif.Lemmas.Round
import Mathlib.Data.Int.Log

/-!
# IEEE-754 binary64 rounding is an instance of `Arith`

`fl64 x` rounds the rational `x` to the nearest multiple of 2^e, ties to even, where e is the
exponent of the last of 53 significant bits, but at least -1074 (subnormal numbers).  Overflow is not
modelled: the exponent range has no upper end.
-/

namespace Estrade

/-- Exponent of the unit in the last place of `x`. -/
def ulpExp (x : ℚ) : ℤ := if x = 0 then -1074 else max (Int.log 2 |x| - 52) (-1074)

/-- Round to nearest, ties to even, in binary64 without overflow. -/
def fl64 (x : ℚ) : ℚ := (rhe (x / 2 ^ ulpExp x) : ℚ) * 2 ^ ulpExp x

theorem ulpExp_ge (x : ℚ) : -1074 ≤ ulpExp x := by
  unfold ulpExp; split_ifs <;> simp

theorem ulpExp_neg (x : ℚ) : ulpExp (-x) = ulpExp x := by
  unfold ulpExp; simp

theorem abs_lt_ulp (x : ℚ) : |x| < 2 ^ 53 * 2 ^ ulpExp x := by
  unfold ulpExp
  split_ifs with h
  · subst h; simp
  · have h1 := Int.lt_zpow_succ_log_self (b := 2) (by norm_num) |x|
    refine lt_of_lt_of_le h1 ?_
    rw [← zpow_natCast, ← zpow_add₀ (by norm_num)]
    push_cast
    apply zpow_le_zpow_right₀ (by norm_num)
    have := le_max_left (Int.log 2 |x| - 52) (-1074)
    linarith

theorem ulp_le_abs (x : ℚ) (h : -1074 < ulpExp x) : 2 ^ 52 * 2 ^ ulpExp x ≤ |x| := by
  unfold ulpExp at *
  split_ifs at * with h0
  · exact absurd h (lt_irrefl _)
  · have h1 := Int.zpow_log_le_self (b := 2) (by norm_num) (abs_pos.mpr h0)
    refine le_trans ?_ h1
    rw [← zpow_natCast, ← zpow_add₀ (by norm_num)]
    push_cast
    apply zpow_le_zpow_right₀ (by norm_num)
    rcases max_cases (Int.log 2 |x| - 52) (-1074) with ⟨e, _⟩ | ⟨e, _⟩ <;> omega

theorem fl64_nearest_multiple (x : ℚ) (m : ℤ) :
    |fl64 x - x| ≤ |(m : ℚ) * 2 ^ ulpExp x - x| := by
  have hp : (0 : ℚ) < 2 ^ ulpExp x := zpow_pos (by norm_num) _
  have h := rhe_nearest (x / 2 ^ ulpExp x) m
  have key : ∀ n : ℤ, |(n : ℚ) * 2 ^ ulpExp x - x| = |x / 2 ^ ulpExp x - n| * 2 ^ ulpExp x := by
    intro n
    rw [← abs_of_pos hp, ← abs_mul, abs_of_pos hp, sub_mul, div_mul_cancel₀ _ hp.ne', abs_sub_comm]
  unfold fl64
  rw [key, key]
  exact mul_le_mul_of_nonneg_right h hp.le

theorem rhe_le_of_abs_lt {x : ℚ} {n : ℤ} (h : |x| < n) : |rhe x| ≤ n := by
  rw [abs_lt] at h
  have h1 := rhe_mono h.1.le
  have h2 := rhe_mono h.2.le
  rw [rhe_int] at h2
  rw [show -(n : ℚ) = ((-n : ℤ) : ℚ) by push_cast; ring, rhe_int] at h1
  exact abs_le.mpr ⟨h1, h2⟩

theorem abs_fl64_le (x : ℚ) : |fl64 x| ≤ 2 ^ 53 * 2 ^ ulpExp x := by
  have hp : (0 : ℚ) < 2 ^ ulpExp x := zpow_pos (by norm_num) _
  unfold fl64
  rw [abs_mul, abs_of_pos hp]
  apply mul_le_mul_of_nonneg_right _ hp.le
  have h : |x / 2 ^ ulpExp x| < ((2 ^ 53 : ℤ) : ℚ) := by
    rw [abs_div, abs_of_pos hp, div_lt_iff₀ hp]
    push_cast
    exact abs_lt_ulp x
  have := rhe_le_of_abs_lt h
  exact_mod_cast this

theorem fl64_nearest (x y : ℚ) : |fl64 x - x| ≤ |fl64 y - x| := by
  by_cases he : ulpExp x ≤ ulpExp y
  · have h := fl64_nearest_multiple x (rhe (y / 2 ^ ulpExp y) * 2 ^ (ulpExp y - ulpExp x).toNat)
    convert h using 2
    unfold fl64
    push_cast
    rw [mul_assoc, ← zpow_natCast (2 : ℚ), ← zpow_add₀ (by norm_num)]
    congr 3
    omega
  · push Not at he
    have hx := ulp_le_abs x (lt_of_le_of_lt (ulpExp_ge y) he)
    have hy := abs_fl64_le y
    have hle : (2 : ℚ) ^ 53 * 2 ^ ulpExp y ≤ 2 ^ 52 * 2 ^ ulpExp x := by
      rw [← zpow_natCast, ← zpow_add₀ (by norm_num), ← zpow_natCast, ← zpow_add₀ (by norm_num)]
      push_cast
      apply zpow_le_zpow_right₀ (by norm_num)
      omega
    have hy' : |fl64 y| ≤ 2 ^ 52 * 2 ^ ulpExp x := hy.trans hle
    set b : ℚ := 2 ^ 52 * 2 ^ ulpExp x with hb
    have hb0 : 0 ≤ b := (abs_nonneg _).trans hy'
    rw [abs_le] at hy'
    rcases abs_cases x with ⟨e, e'⟩ | ⟨e, e'⟩
    · have h := fl64_nearest_multiple x (2 ^ 52)
      rw [show (((2 ^ 52 : ℤ) : ℚ)) * 2 ^ ulpExp x = b by rw [hb]; norm_num] at h
      refine h.trans ?_
      rw [abs_of_nonpos (by linarith), abs_of_nonpos (by linarith)]
      linarith
    · have h := fl64_nearest_multiple x (-2 ^ 52)
      rw [show (((-2 ^ 52 : ℤ) : ℚ)) * 2 ^ ulpExp x = -b by rw [hb]; push_cast; ring] at h
      refine h.trans ?_
      rw [abs_of_nonneg (by linarith), abs_of_nonneg (by linarith)]
      linarith

theorem fl64_neg (x : ℚ) : fl64 (-x) = - fl64 x := by
  unfold fl64
  rw [ulpExp_neg, neg_div, rhe_neg]; push_cast; ring

theorem fl64_int (n : ℤ) (h : |n| ≤ 2 ^ 53) : fl64 (n : ℚ) = n := by
  suffices ∃ m : ℤ, (n : ℚ) = m * 2 ^ ulpExp (n : ℚ) by
    obtain ⟨m, hm⟩ := this
    have hp : (0 : ℚ) < 2 ^ ulpExp (n : ℚ) := zpow_pos (by norm_num) _
    have h1 := fl64_nearest_multiple (n : ℚ) m
    rw [← hm, sub_self, abs_zero, abs_nonpos_iff, sub_eq_zero] at h1
    exact h1
  rcases le_or_gt (ulpExp (n : ℚ)) 0 with he | he
  · refine ⟨n * 2 ^ (-ulpExp (n : ℚ)).toNat, ?_⟩
    push_cast
    rw [mul_assoc, ← zpow_natCast (2 : ℚ), ← zpow_add₀ (by norm_num)]
    rw [show (((-ulpExp (n : ℚ)).toNat : ℕ) : ℤ) + ulpExp (n : ℚ) = 0 by omega]
    simp
  · -- only possible for |n| = 2 ^ 53, where the unit is 2
    have h1 := ulp_le_abs (n : ℚ) (by omega)
    have hn : |(n : ℚ)| ≤ 2 ^ 53 := by exact_mod_cast h
    have h2 : (2 : ℚ) ^ ulpExp (n : ℚ) ≤ 2 ^ (1 : ℤ) := by
      have : (2 : ℚ) ^ 52 * 2 ^ ulpExp (n : ℚ) ≤ 2 ^ 52 * 2 := by
        refine (h1.trans hn).trans ?_; norm_num
      have := le_of_mul_le_mul_left this (by norm_num)
      simpa using this
    have h3 : ulpExp (n : ℚ) ≤ 1 := (zpow_le_zpow_iff_right₀ (by norm_num)).mp h2
    have h4 : ulpExp (n : ℚ) = 1 := by omega
    rw [h4] at h1 ⊢
    have h5 : |(n : ℚ)| = 2 ^ 53 := le_antisymm hn (by refine le_trans ?_ h1; norm_num)
    rcases abs_cases (n : ℚ) with ⟨e, _⟩ | ⟨e, _⟩
    · exact ⟨2 ^ 52, by rw [e] at h5; rw [h5]; norm_num⟩
    · exact ⟨-2 ^ 52, by rw [e] at h5; push_cast; norm_num at h5 ⊢; linarith⟩

/-- IEEE-754 binary64 satisfies the laws of `Arith`. -/
@[reducible] def Arith.binary64 : Arith where
  fl := fl64
  nearest := fl64_nearest
  neg := fl64_neg
  int_exact := fl64_int

end Estrade
