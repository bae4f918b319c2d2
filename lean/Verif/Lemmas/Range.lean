import Verif.Lemmas.Quad
import Mathlib.Tactic.FieldSimp

/-!
# Error bounds: amounts in cents within the range of the float format

`Accurate` bounds the rounding error of one operation; it holds for exact arithmetic and for binary64.
`Apx S k x s`: the float `x` is within `k` rounding steps of the exact amount `s`, where all amounts are at most `S`.
-/

set_option autoImplicit false
set_option linter.unusedSectionVars false

namespace Estrade

section
variable [Arith]

/-- Rounding errs by at most half a unit in the 53rd bit (or by a tiny absolute amount). -/
def Accurate : Prop := ∀ x : ℚ, |fl x - x| ≤ |x| / 2 ^ 53 + 1 / 2 ^ 200

end

theorem accurate_exact : @Accurate Arith.exact := by
  intro x
  change |x - x| ≤ _
  rw [sub_self, abs_zero]
  positivity

theorem fl64_err (x : ℚ) : |fl64 x - x| ≤ 2 ^ ulpExp x / 2 := by
  have hp : (0 : ℚ) < 2 ^ ulpExp x := zpow_pos (by norm_num) _
  have h := rhe_abs (x / 2 ^ ulpExp x)
  have : fl64 x - x = -(x / 2 ^ ulpExp x - rhe (x / 2 ^ ulpExp x)) * 2 ^ ulpExp x := by
    unfold fl64
    rw [neg_sub, sub_mul, div_mul_cancel₀ _ hp.ne']
  rw [this, abs_mul, abs_neg, abs_of_pos hp]
  have := mul_le_mul_of_nonneg_right h hp.le
  linarith

theorem accurate_binary64 : @Accurate Arith.binary64 := by
  intro x
  change |fl64 x - x| ≤ _
  have h := fl64_err x
  have h0 : 0 ≤ |x| := abs_nonneg x
  rcases (ulpExp_ge x).lt_or_eq with he | he
  · have h1 := ulp_le_abs x he
    have h2 : (0 : ℚ) ≤ 1 / 2 ^ 200 := by positivity
    have h3 : (2 : ℚ) ^ ulpExp x / 2 ≤ |x| / 2 ^ 53 := by
      rw [div_le_div_iff₀ (by norm_num) (by norm_num)]
      linarith
    linarith
  · rw [← he] at h
    have h2 : (2 : ℚ) ^ (-1074 : ℤ) / 2 ≤ 1 / 2 ^ 200 := by
      have h5 : (2 : ℚ) ^ (-1074 : ℤ) ≤ 2 ^ (-200 : ℤ) := zpow_le_zpow_right₀ (by norm_num) (by norm_num)
      have h6 : (2 : ℚ) ^ (-200 : ℤ) = 1 / 2 ^ 200 := by rw [zpow_neg, one_div]; rfl
      have h7 : (0 : ℚ) < 2 ^ (-1074 : ℤ) := zpow_pos (by norm_num) _
      rw [h6] at h5
      linarith
    have h3 : 0 ≤ |x| / 2 ^ 53 := by positivity
    linarith

section
variable [Arith]

structure Apx (S : ℚ) (k : ℕ) (x s : ℚ) : Prop where
  near : |x - s| ≤ k * (S / 2 ^ 51)
  size : |s| ≤ S

theorem fl_err2 (hA : Accurate) {S x : ℚ} (hS : 1 ≤ S) (h : |x| ≤ 2 * S) : |fl x - x| ≤ S / 2 ^ 51 := by
  have h1 := hA x
  have h2 : |x| / 2 ^ 53 ≤ 2 * S / 2 ^ 53 := by gcongr
  have h3 : (1 : ℚ) / 2 ^ 200 ≤ S / 2 ^ 52 := by
    rw [div_le_div_iff₀ (by positivity) (by positivity)]
    have : (2 : ℚ) ^ 52 ≤ 2 ^ 200 := by norm_num
    nlinarith
  have h4 : 2 * S / 2 ^ 53 + S / 2 ^ 52 = S / 2 ^ 51 := by ring
  linarith

theorem Apx.zero {S : ℚ} (hS : 1 ≤ S) : Apx S 0 0 0 := ⟨by simp, by rw [abs_zero]; linarith⟩

theorem Apx.fl (hA : Accurate) {S s : ℚ} (hS : 1 ≤ S) (h : |s| ≤ S) : Apx S 1 (Arith.fl s) s :=
  ⟨by rw [Nat.cast_one, one_mul]; exact fl_err2 hA hS (by linarith), h⟩

theorem Apx.mono {S x s : ℚ} {j k : ℕ} (h : Apx S j x s) (hjk : j ≤ k) : Apx S k x s := by
  refine ⟨h.near.trans ?_, h.size⟩
  have h0 : 0 ≤ S := (abs_nonneg _).trans h.size
  have : (j : ℚ) ≤ k := by exact_mod_cast hjk
  gcongr

theorem Apx.add (hA : Accurate) {S x y s t : ℚ} {j k : ℕ} (hS : 1 ≤ S) (hx : Apx S j x s) (hy : Apx S k y t)
    (hst : |s + t| ≤ S) (hk : j + k ≤ 2 ^ 51) : Apx S (j + k + 1) (fadd x y) (s + t) := by
  refine ⟨?_, hst⟩
  have hk' : ((j : ℚ) + k) ≤ 2 ^ 51 := by exact_mod_cast hk
  have e0 : 0 ≤ S / 2 ^ 51 := by positivity
  have h1 : |x + y - (s + t)| ≤ (j + k) * (S / 2 ^ 51) := by
    have := abs_add_le (x - s) (y - t)
    rw [show x + y - (s + t) = (x - s) + (y - t) by ring]
    have h1 := hx.near
    have h2 := hy.near
    linarith [add_mul (j : ℚ) k (S / 2 ^ 51)]
  have h2 : ((j : ℚ) + k) * (S / 2 ^ 51) ≤ S := by
    calc ((j : ℚ) + k) * (S / 2 ^ 51) ≤ 2 ^ 51 * (S / 2 ^ 51) := by gcongr
      _ = S := by ring
  have h3 : |x + y| ≤ 2 * S := by
    have := abs_add_le (x + y - (s + t)) (s + t)
    rw [sub_add_cancel] at this
    linarith
  have h4 := fl_err2 hA hS h3
  unfold fadd
  have h5 := abs_add_le (Arith.fl (x + y) - (x + y)) (x + y - (s + t))
  rw [show Arith.fl (x + y) - (x + y) + (x + y - (s + t)) = Arith.fl (x + y) - (s + t) by ring] at h5
  push_cast
  linarith [add_mul ((j : ℚ) + k) 1 (S / 2 ^ 51)]

/-- A left-to-right float sum of approximations. -/
theorem Apx.foldl (hA : Accurate) {α : Type} {S : ℚ} (hS : 1 ≤ S) (x s : α → ℚ) (k : α → ℕ) :
    ∀ (l : List α) (a σ : ℚ) (j : ℕ), Apx S j a σ → (∀ i ∈ l, Apx S (k i) (x i) (s i)) →
      |σ| + (l.map (fun i => |s i|)).sum ≤ S → j + (l.map (fun i => k i + 1)).sum ≤ 2 ^ 51 →
      Apx S (j + (l.map (fun i => k i + 1)).sum) ((l.map x).foldl fadd a) (σ + (l.map s).sum)
  | [], a, σ, j, h, _, _, _ => by simpa using h
  | i :: l, a, σ, j, h, hl, hs, hk => by
    simp only [List.map_cons, List.sum_cons, List.foldl_cons] at hs hk ⊢
    have hnn : 0 ≤ (l.map (fun i => |s i|)).sum :=
      List.sum_nonneg (by intro y hy; obtain ⟨z, -, rfl⟩ := List.mem_map.mp hy; exact abs_nonneg _)
    have h1 := abs_add_le σ (s i)
    have h2 := Apx.add hA hS h (hl i (by simp)) (by linarith) (by omega)
    have h3 := Apx.foldl hA hS x s k l _ _ _ h2 (fun i hi => hl i (by simp [hi])) (by linarith) (by omega)
    have e1 : j + k i + 1 + (l.map (fun i => k i + 1)).sum = j + (k i + 1 + (l.map (fun i => k i + 1)).sum) := by
      omega
    have e2 : σ + s i + (l.map s).sum = σ + (s i + (l.map s).sum) := by ring
    rw [e1, e2] at h3
    exact h3

theorem cent_of_near {x s : ℚ} (hs : IsCent s) (h : |x - s| < 1 / 200) : cent x = s := by
  obtain ⟨n, rfl⟩ := hs
  unfold cent
  have : |x * 100 - n| < 1 / 2 := by
    rw [abs_lt] at *
    constructor <;> linarith [h.1, h.2]
  rw [rhe_unique (x * 100) n this.le (fun e => by rw [e] at this; exact absurd this (lt_irrefl _))]

/-- An approximation of a whole number of cents, rounded to cents, is the float of that number. -/
theorem Apx.rnd {S x s : ℚ} {k : ℕ} (h : Apx S k x s) (hs : IsCent s) (hk : k * S ≤ 2 ^ 43) :
    Estrade.rnd x = Arith.fl s := by
  unfold Estrade.rnd
  rw [cent_of_near hs]
  refine lt_of_le_of_lt h.near ?_
  have : (k : ℚ) * (S / 2 ^ 51) = k * S / 2 ^ 51 := by ring
  rw [this]
  calc (k : ℚ) * S / 2 ^ 51 ≤ 2 ^ 43 / 2 ^ 51 := by gcongr
    _ < 1 / 200 := by norm_num

/-- A float of a whole number of cents times an integer. -/
theorem Apx.mul (hA : Accurate) {S g : ℚ} (hS : 1 ≤ S) (hg : IsCent g) (q : ℤ) (h : |g * q| ≤ S) :
    Apx S 2 (fmul (Arith.fl g) q) (g * q) := by
  refine ⟨?_, h⟩
  by_cases hg0 : g = 0
  · subst hg0
    unfold fmul
    rw [fl_zero, zero_mul, fl_zero, sub_zero, abs_zero]
    positivity
  have hg1 : 1 / 100 ≤ |g| := by
    obtain ⟨n, rfl⟩ := hg
    have : n ≠ 0 := by rintro rfl; simp at hg0
    have : (1 : ℤ) ≤ |n| := Int.one_le_abs this
    have : (1 : ℚ) ≤ |(n : ℚ)| := by exact_mod_cast this
    rw [abs_div, abs_of_pos (by norm_num : (0 : ℚ) < 100)]
    linarith
  have hq : |(q : ℚ)| ≤ 100 * S := by
    rw [abs_mul] at h
    have : 1 / 100 * |(q : ℚ)| ≤ |g| * |(q : ℚ)| := by gcongr
    linarith
  have h1 := hA g
  have h2 : |Arith.fl g * q - g * q| ≤ S / 2 ^ 52 := by
    rw [← sub_mul, abs_mul]
    calc |Arith.fl g - g| * |(q : ℚ)| ≤ (|g| / 2 ^ 53 + 1 / 2 ^ 200) * |(q : ℚ)| := by gcongr
      _ = |g * q| / 2 ^ 53 + |(q : ℚ)| / 2 ^ 200 := by rw [abs_mul]; ring
      _ ≤ S / 2 ^ 53 + 100 * S / 2 ^ 200 := by gcongr
      _ ≤ S / 2 ^ 53 + S / 2 ^ 53 := by
          have : 100 * S / 2 ^ 200 ≤ S / 2 ^ 53 := by
            rw [div_le_div_iff₀ (by positivity) (by positivity)]
            have : (100 : ℚ) * 2 ^ 53 ≤ 2 ^ 200 := by norm_num
            nlinarith
          linarith
      _ = S / 2 ^ 52 := by ring
  have h3 : |Arith.fl g * q| ≤ 2 * S := by
    have := abs_add_le (Arith.fl g * q - g * q) (g * q)
    rw [sub_add_cancel] at this
    have h5 : S / 2 ^ 52 ≤ S := by
      rw [div_le_iff₀ (by positivity)]
      nlinarith
    linarith
  have h4 := fl_err2 hA hS h3
  unfold fmul
  have h5 := abs_add_le (Arith.fl (Arith.fl g * q) - Arith.fl g * q) (Arith.fl g * q - g * q)
  rw [show Arith.fl (Arith.fl g * q) - Arith.fl g * q + (Arith.fl g * q - g * q) =
    Arith.fl (Arith.fl g * q) - g * q by ring] at h5
  have h6 : S / 2 ^ 52 ≤ S / 2 ^ 51 := by
    gcongr <;> norm_num
  push_cast
  linarith

theorem Apx.neg {S x s : ℚ} {k : ℕ} (h : Apx S k x s) : Apx S k (-x) (-s) :=
  ⟨by rw [show -x - -s = -(x - s) by ring, abs_neg]; exact h.near, by rw [abs_neg]; exact h.size⟩

theorem Apx.sub (hA : Accurate) {S x y s t : ℚ} {j k : ℕ} (hS : 1 ≤ S) (hx : Apx S j x s) (hy : Apx S k y t)
    (hst : |s - t| ≤ S) (hk : j + k ≤ 2 ^ 51) : Apx S (j + k + 1) (fsub x y) (s - t) := by
  have := Apx.add hA hS hx hy.neg (by rw [← sub_eq_add_neg]; exact hst) hk
  unfold fadd at this
  rw [← sub_eq_add_neg, ← sub_eq_add_neg] at this
  exact this

/-- Doubling. -/
theorem Apx.twice (hA : Accurate) {S x s : ℚ} {j : ℕ} (hS : 1 ≤ S) (hx : Apx S j x s)
    (hst : |2 * s| ≤ S) (hk : 2 * j ≤ 2 ^ 51) : Apx S (2 * j + 1) (fmul x 2) (2 * s) := by
  have h := Apx.add hA hS hx hx (by rw [← two_mul]; exact hst) (by omega)
  unfold fadd at h
  unfold fmul
  rw [show x * 2 = x + x by ring, two_mul s, show 2 * j + 1 = j + j + 1 by omega]
  exact h

theorem Apx.rnd39 {x s : ℚ} {k : ℕ} (h : Apx (2 ^ 39) k x s) (hs : IsCent s) (hk : k ≤ 16) :
    Estrade.rnd x = Arith.fl s := by
  refine h.rnd hs ?_
  have : (k : ℚ) ≤ 16 := by exact_mod_cast hk
  linarith

/-- The size of a cent amount from the size of its float. -/
theorem abs_le_of_fl (hA : Accurate) {s M : ℚ} (hM : 1 ≤ M) (h : |Arith.fl s| ≤ M) : |s| ≤ 2 * M := by
  have h1 := hA s
  have h2 := abs_add_le (s - Arith.fl s) (Arith.fl s)
  rw [sub_add_cancel, abs_sub_comm] at h2
  have h3 : |s| / 2 ^ 53 ≤ |s| / 4 := by gcongr; norm_num
  have h4 : (1 : ℚ) / 2 ^ 200 ≤ 1 / 4 := by norm_num
  linarith

theorem cent_ge_of {x s : ℚ} (hs : IsCent s) (h : s - 1 / 200 < x) : s ≤ cent x := by
  rw [← hs.cent]
  unfold cent
  have h2 : rhe (s * 100) ≤ rhe (x * 100) := by
    obtain ⟨n, rfl⟩ := hs
    rw [show (n : ℚ) / 100 * 100 = n by ring, rhe_int]
    by_contra hc
    have hle : rhe (x * 100) ≤ n - 1 := by omega
    have h3 := rhe_abs (x * 100)
    rw [abs_le] at h3
    have h4 : ((rhe (x * 100) : ℤ) : ℚ) ≤ n - 1 := by exact_mod_cast hle
    linarith [h3.1, h3.2]
  have : ((rhe (s * 100) : ℤ) : ℚ) ≤ rhe (x * 100) := by exact_mod_cast h2
  linarith

theorem cent_le_of {x s : ℚ} (hs : IsCent s) (h : x < s + 1 / 200) : cent x ≤ s := by
  have := cent_ge_of (x := -x) hs.neg (by linarith)
  rw [cent_neg] at this
  linarith

end

end Estrade
