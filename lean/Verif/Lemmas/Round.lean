import Verif.Num

/-! # Lemmas on half-even rounding -/

namespace Estrade

theorem rhe_abs (x : ℚ) : |x - rhe x| ≤ 1 / 2 := by
  have h1 := Int.floor_le x
  have h2 := Int.lt_floor_add_one x
  unfold rhe
  split_ifs with a b c <;> rw [abs_le] <;> push_cast <;> constructor <;> linarith

theorem rhe_tie (x : ℚ) (h : |x - rhe x| = 1 / 2) : rhe x % 2 = 0 := by
  have h1 := Int.floor_le x
  have h2 := Int.lt_floor_add_one x
  unfold rhe at *
  split_ifs at * with a b c
  · rw [abs_of_nonneg (by linarith)] at h; linarith
  · rw [abs_of_neg (by push_cast; linarith)] at h; push_cast at h; linarith
  · exact c
  · omega

/-- Characterisation of half-even rounding. -/
theorem rhe_unique (x : ℚ) (n : ℤ) (h : |x - n| ≤ 1 / 2) (ht : |x - n| = 1 / 2 → n % 2 = 0) :
    rhe x = n := by
  have h1 := rhe_abs x
  have h2 := rhe_tie x
  set m := rhe x with hm
  by_contra hne
  have habs := abs_sub_abs_le_abs_sub (x - m) (x - n)
  rcases lt_or_gt_of_ne hne with hlt | hlt
  · have hq : (m : ℚ) + 1 ≤ n := by exact_mod_cast hlt
    rw [abs_le] at h h1
    have e1 : x - m = 1 / 2 := by linarith [h.1, h1.2]
    have e2 : x - n = -(1 / 2) := by linarith [h.1, h1.2]
    have p1 := h2 (by rw [e1]; norm_num)
    have p2 := ht (by rw [e2]; norm_num)
    have : (n : ℚ) = m + 1 := by linarith
    have : n = m + 1 := by exact_mod_cast this
    omega
  · have hq : (n : ℚ) + 1 ≤ m := by exact_mod_cast hlt
    rw [abs_le] at h h1
    have e1 : x - m = -(1 / 2) := by linarith [h.2, h1.1]
    have e2 : x - n = 1 / 2 := by linarith [h.2, h1.1]
    have p1 := h2 (by rw [e1]; norm_num)
    have p2 := ht (by rw [e2]; norm_num)
    have : (m : ℚ) = n + 1 := by linarith
    have : m = n + 1 := by exact_mod_cast this
    omega

@[simp] theorem rhe_int (n : ℤ) : rhe (n : ℚ) = n := by simp [rhe]

theorem rhe_neg (x : ℚ) : rhe (-x) = - rhe x := by
  apply rhe_unique
  · have := rhe_abs x
    rw [← abs_neg]; push_cast
    rwa [show -(-x - -(rhe x : ℚ)) = x - rhe x by ring]
  · intro h
    have := rhe_tie x (by
      rw [← abs_neg] at h; push_cast at h
      rwa [show -(-x - -(rhe x : ℚ)) = x - rhe x by ring] at h)
    omega

theorem rhe_mono {x y : ℚ} (h : x ≤ y) : rhe x ≤ rhe y := by
  by_contra hlt
  push Not at hlt
  have hq : (rhe y : ℚ) + 1 ≤ rhe x := by exact_mod_cast hlt
  have h1 := rhe_abs x
  have h2 := rhe_abs y
  rw [abs_le] at h1 h2
  have e : x = y := by linarith [h1.1, h2.2]
  subst e
  omega

theorem rhe_nearest (x : ℚ) (m : ℤ) : |x - rhe x| ≤ |x - m| := by
  have h1 := rhe_abs x
  by_cases hm : m = rhe x
  · rw [hm]
  · refine h1.trans ?_
    by_contra hlt
    push Not at hlt
    exact hm (rhe_unique x m hlt.le (fun h => absurd h (ne_of_lt hlt))).symm

theorem cent_mono {x y : ℚ} (h : x ≤ y) : cent x ≤ cent y := by
  unfold cent
  have : rhe (x * 100) ≤ rhe (y * 100) := rhe_mono (by linarith)
  have : (rhe (x * 100) : ℚ) ≤ rhe (y * 100) := by exact_mod_cast this
  linarith

theorem cent_neg (x : ℚ) : cent (-x) = - cent x := by
  unfold cent
  rw [neg_mul, rhe_neg]; push_cast; ring

@[simp] theorem cent_div (n : ℤ) : cent ((n : ℚ) / 100) = n / 100 := by
  unfold cent
  rw [div_mul_cancel₀ _ (by norm_num : (100 : ℚ) ≠ 0), rhe_int]

@[simp] theorem cent_cent (x : ℚ) : cent (cent x) = cent x := by
  conv_lhs => rw [show cent x = (rhe (x * 100) : ℚ) / 100 from rfl]
  rw [cent_div]; rfl

@[simp] theorem cent_int (n : ℤ) : cent (n : ℚ) = n := by
  have := cent_div (n * 100)
  push_cast at this
  rwa [mul_div_cancel_right₀ _ (by norm_num : (100 : ℚ) ≠ 0)] at this

@[simp] theorem cent_zero : cent 0 = 0 := by simpa using cent_int 0

theorem cent_abs (x : ℚ) : |x - cent x| ≤ 1 / 200 := by
  have h := rhe_abs (x * 100)
  unfold cent
  rw [abs_le] at *
  constructor <;> linarith [h.1, h.2]

theorem cent_nonneg {x : ℚ} (h : 0 ≤ x) : 0 ≤ cent x := by
  have := cent_mono h
  simpa using this

/-- Two decimals at most. -/
def IsCent (x : ℚ) : Prop := ∃ n : ℤ, x = n / 100

theorem IsCent.cent {x : ℚ} (h : IsCent x) : Estrade.cent x = x := by
  obtain ⟨n, rfl⟩ := h; simp

theorem isCent_cent (x : ℚ) : IsCent (cent x) := ⟨rhe (x * 100), rfl⟩

theorem IsCent.add {x y : ℚ} (hx : IsCent x) (hy : IsCent y) : IsCent (x + y) := by
  obtain ⟨a, rfl⟩ := hx; obtain ⟨b, rfl⟩ := hy
  exact ⟨a + b, by push_cast; ring⟩

theorem IsCent.sub {x y : ℚ} (hx : IsCent x) (hy : IsCent y) : IsCent (x - y) := by
  obtain ⟨a, rfl⟩ := hx; obtain ⟨b, rfl⟩ := hy
  exact ⟨a - b, by push_cast; ring⟩

theorem IsCent.neg {x : ℚ} (hx : IsCent x) : IsCent (-x) := by
  obtain ⟨a, rfl⟩ := hx
  exact ⟨-a, by push_cast; ring⟩

theorem IsCent.mul_int {x : ℚ} (hx : IsCent x) (n : ℤ) : IsCent (x * n) := by
  obtain ⟨a, rfl⟩ := hx
  exact ⟨a * n, by push_cast; ring⟩

theorem isCent_int (n : ℤ) : IsCent n := ⟨n * 100, by push_cast; ring⟩

theorem isCent_zero : IsCent 0 := by simpa using isCent_int 0

section
variable [Arith]

theorem fl_zero : fl 0 = 0 := by
  have := Arith.int_exact 0 (by norm_num)
  simpa using this

theorem fl_int {n : ℤ} (h : |n| ≤ 2 ^ 53) : fl (n : ℚ) = n := Arith.int_exact n h

theorem fl_idem (x : ℚ) : fl (fl x) = fl x := by
  have := Arith.nearest (fl x) x
  rw [sub_self, abs_zero, abs_nonpos_iff, sub_eq_zero] at this
  exact this

theorem fl_mono {x y : ℚ} (h : x ≤ y) : fl x ≤ fl y := by
  by_contra hlt
  push Not at hlt
  have h1 := Arith.nearest x y
  have h2 := Arith.nearest y x
  have hxy : x ≠ y := by rintro rfl; exact lt_irrefl _ hlt
  have hxy' := lt_of_le_of_ne h hxy
  rcases abs_cases (fl x - x) with ⟨a, a'⟩ | ⟨a, a'⟩ <;>
    rcases abs_cases (fl y - x) with ⟨b, b'⟩ | ⟨b, b'⟩ <;>
    rcases abs_cases (fl y - y) with ⟨c, c'⟩ | ⟨c, c'⟩ <;>
    rcases abs_cases (fl x - y) with ⟨d, d'⟩ | ⟨d, d'⟩ <;>
    rw [a, b] at h1 <;> rw [c, d] at h2 <;> linarith

theorem fl_neg (x : ℚ) : fl (-x) = - fl x := Arith.neg x

theorem fl_nonneg {x : ℚ} (h : 0 ≤ x) : 0 ≤ fl x := by
  have := fl_mono h
  rwa [fl_zero] at this

theorem rnd_mono {x y : ℚ} (h : x ≤ y) : rnd x ≤ rnd y := fl_mono (cent_mono h)

theorem rnd_neg (x : ℚ) : rnd (-x) = - rnd x := by
  unfold rnd; rw [cent_neg, fl_neg]

theorem rnd_zero : rnd 0 = 0 := by unfold rnd; rw [cent_zero, fl_zero]

theorem rnd_nonneg {x : ℚ} (h : 0 ≤ x) : 0 ≤ rnd x := fl_nonneg (cent_nonneg h)

theorem fl_rnd (x : ℚ) : fl (rnd x) = rnd x := fl_idem _

/-- `round(round(x, 2), 2) == round(x, 2)` for every float `x`. -/
theorem rnd_rnd {x : ℚ} (hx : fl x = x) : rnd (rnd x) = rnd x := by
  have hn : |fl (cent x) - cent x| ≤ |x - cent x| := by
    have := Arith.nearest (cent x) x
    rwa [hx] at this
  suffices cent (fl (cent x)) = cent x by unfold rnd; rw [this]
  have h100 : ∀ y : ℚ, |y * 100 - (rhe (x * 100) : ℚ)| = |y - cent x| * 100 := by
    intro y
    rw [show y * 100 - (rhe (x * 100) : ℚ) = (y - cent x) * 100 by unfold cent; ring, abs_mul]
    norm_num
  have hxa := rhe_abs (x * 100)
  have hxt := rhe_tie (x * 100)
  rw [h100] at hxa hxt
  have : rhe (fl (cent x) * 100) = rhe (x * 100) := by
    apply rhe_unique
    · rw [h100]; linarith
    · intro h
      rw [h100] at h
      exact hxt (by linarith)
  show (rhe (fl (cent x) * 100) : ℚ) / 100 = (rhe (x * 100) : ℚ) / 100
  rw [this]

theorem rnd_int {n : ℤ} (h : |n| ≤ 2 ^ 53) : rnd (n : ℚ) = n := by
  unfold rnd; rw [cent_int, fl_int h]

theorem fsub_neg_swap (x y : ℚ) : fsub x y = - fsub y x := by
  unfold fsub; rw [← fl_neg]; congr 1; ring

theorem fsub_nonneg {x y : ℚ} (h : y ≤ x) : 0 ≤ fsub x y := fl_nonneg (by linarith)

theorem fadd_nonneg {x y : ℚ} (h : 0 ≤ x) (h' : 0 ≤ y) : 0 ≤ fadd x y := fl_nonneg (by linarith)

section exact
variable (hE : Exact)
include hE

theorem rnd_exact (x : ℚ) : rnd x = cent x := hE _
theorem fadd_exact (x y : ℚ) : fadd x y = x + y := hE _
theorem fsub_exact (x y : ℚ) : fsub x y = x - y := hE _
theorem fmul_exact (x y : ℚ) : fmul x y = x * y := hE _
theorem fdiv_exact (x y : ℚ) : fdiv x y = x / y := hE _

theorem foldl_fadd_exact (l : List ℚ) (a : ℚ) : l.foldl fadd a = a + l.sum := by
  induction l generalizing a with
  | nil => simp
  | cons x l ih => rw [List.foldl_cons, ih, fadd_exact hE, List.sum_cons]; ring

theorem fsum_exact (l : List ℚ) : fsum l = l.sum := by
  unfold fsum; rw [foldl_fadd_exact hE]; ring

end exact

end

theorem exact_exact : @Exact Arith.exact := fun _ => rfl

end Estrade
