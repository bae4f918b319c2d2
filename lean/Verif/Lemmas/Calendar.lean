import Verif.Timeframe
import Mathlib.Order.Monotone.Basic
import Mathlib.Tactic.IntervalCases

/-! # The proleptic Gregorian calendar: ordinals and (year, month, day) are inverse -/

namespace Estrade

theorem monthDay_table : ∀ (leap : Bool) (n : Fin 366), (n.val < 365 ∨ leap = true) →
    let r := monthDay leap (n.val : ℤ)
    1 ≤ r.1 ∧ r.1 ≤ 12 ∧ 1 ≤ r.2 ∧ r.2 ≤ daysInMonth leap r.1 ∧
      daysBeforeMonth leap r.1 + r.2 = (n.val : ℤ) + 1 := by
  decide +kernel

theorem monthDay_spec (leap : Bool) (n : ℤ) (h0 : 0 ≤ n) (h1 : n < 365 ∨ (n < 366 ∧ leap = true)) :
    1 ≤ (monthDay leap n).1 ∧ (monthDay leap n).1 ≤ 12 ∧ 1 ≤ (monthDay leap n).2 ∧
      (monthDay leap n).2 ≤ daysInMonth leap (monthDay leap n).1 ∧
      daysBeforeMonth leap (monthDay leap n).1 + (monthDay leap n).2 = n + 1 := by
  have h := monthDay_table leap ⟨n.toNat, by omega⟩ (by
    rcases h1 with h1 | h1
    · left; simp only; omega
    · right; exact h1.2)
  have e : ((n.toNat : ℕ) : ℤ) = n := Int.toNat_of_nonneg h0
  simp only [e] at h
  exact h

/-- A date is valid. -/
def ValidYMD (x : YMD) : Prop := 1 ≤ x.m ∧ x.m ≤ 12 ∧ 1 ≤ x.d ∧ x.d ≤ daysInMonth (isLeap x.y) x.m

theorem isLeap_iff (y : ℤ) : isLeap y = true ↔ y % 4 = 0 ∧ (y % 100 ≠ 0 ∨ y % 400 = 0) := by
  simp [isLeap]

theorem ord2ymd_spec (n : ℤ) :
    ValidYMD (ord2ymd n) ∧ ymd2ord (ord2ymd n).y (ord2ymd n).m (ord2ymd n).d = n := by
  unfold ord2ymd
  simp only
  set a := (n - 1) / 146097 with ha
  set r1 := (n - 1) % 146097 with hr1
  set b := r1 / 36524 with hb
  set r2 := r1 % 36524 with hr2
  set c := r2 / 1461 with hc
  set r3 := r2 % 1461 with hr3
  set e := r3 / 365 with he
  set r4 := r3 % 365 with hr4
  have hA : 0 ≤ r1 ∧ r1 < 146097 := by omega
  have hB : 0 ≤ b ∧ b ≤ 4 ∧ r1 = 36524 * b + r2 ∧ 0 ≤ r2 ∧ r2 < 36524 := by omega
  have hC : 0 ≤ c ∧ c ≤ 24 ∧ r2 = 1461 * c + r3 ∧ 0 ≤ r3 ∧ r3 < 1461 := by omega
  have hD : 0 ≤ e ∧ e ≤ 4 ∧ r3 = 365 * e + r4 ∧ 0 ≤ r4 ∧ r4 < 365 := by omega
  have hN : n = 146097 * a + r1 + 1 := by omega
  clear_value a r1 b r2 c r3 e r4
  clear ha hr1 hb hr2 hc hr3 he hr4
  split_ifs with hx
  · -- last day of a leap year
    have hleap : isLeap (a * 400 + 1 + b * 100 + c * 4 + e - 1) = true := by
      rw [isLeap_iff]; omega
    refine ⟨⟨by norm_num, by norm_num, by norm_num, by norm_num [daysInMonth]⟩, ?_⟩
    simp only [ymd2ord, hleap, daysBeforeMonth, daysBeforeYear]
    norm_num
    rcases hx with h4 | h4
    · have q1 : (a * 400 + 1 + b * 100 + c * 4 + e - 1 - 1) / 4 = 100 * a + 25 * b + c := by omega
      have q2 : (a * 400 + 1 + b * 100 + c * 4 + e - 1 - 1) / 100 = 4 * a + b := by omega
      have q3 : (a * 400 + 1 + b * 100 + c * 4 + e - 1 - 1) / 400 = a := by omega
      rw [q1, q2, q3]; omega
    · have q1 : (a * 400 + 1 + b * 100 + c * 4 + e - 1 - 1) / 4 = 100 * a + 99 := by omega
      have q2 : (a * 400 + 1 + b * 100 + c * 4 + e - 1 - 1) / 100 = 4 * a + 3 := by omega
      have q3 : (a * 400 + 1 + b * 100 + c * 4 + e - 1 - 1) / 400 = a := by omega
      rw [q1, q2, q3]; omega
  · push Not at hx
    have hleap : isLeap (a * 400 + 1 + b * 100 + c * 4 + e) =
        (decide (e = 3) && (decide (c ≠ 24) || decide (b = 3))) := by
      rw [Bool.eq_iff_iff, isLeap_iff]
      simp only [ne_eq, decide_not, Bool.and_eq_true, decide_eq_true_eq, Bool.or_eq_true,
        Bool.not_eq_true', decide_eq_false_iff_not]
      omega
    obtain ⟨m1, m2, d1, d2, hs⟩ :=
      monthDay_spec (decide (e = 3) && (decide (c ≠ 24) || decide (b = 3))) r4 hD.2.2.2.1 (.inl hD.2.2.2.2)
    refine ⟨⟨m1, m2, d1, ?_⟩, ?_⟩
    · simp only [hleap]; exact d2
    · simp only [ymd2ord, hleap, daysBeforeYear]
      have q1 : (a * 400 + 1 + b * 100 + c * 4 + e - 1) / 4 = 100 * a + 25 * b + c := by omega
      have q2 : (a * 400 + 1 + b * 100 + c * 4 + e - 1) / 100 = 4 * a + b := by omega
      have q3 : (a * 400 + 1 + b * 100 + c * 4 + e - 1) / 400 = a := by omega
      rw [q1, q2, q3]; omega

/-- Ordinal of the first day of month number `i` (counted from January of year 0). -/
def mfirst (i : ℤ) : ℤ := ymd2ord (i / 12) (i % 12 + 1) 1

theorem daysBeforeYear_succ (y : ℤ) :
    daysBeforeYear (y + 1) = daysBeforeYear y + 365 + (if isLeap y then 1 else 0) := by
  unfold daysBeforeYear
  simp only
  by_cases h : isLeap y
  · rw [if_pos h]; rw [isLeap_iff] at h; omega
  · rw [if_neg h]; rw [isLeap_iff] at h; omega

theorem daysInMonth_pos (l : Bool) (m : ℤ) : 28 ≤ daysInMonth l m ∧ daysInMonth l m ≤ 31 := by
  unfold daysInMonth; split_ifs <;> omega

theorem daysBeforeMonth_succ (l : Bool) (m : ℤ) (h1 : 1 ≤ m) (h2 : m ≤ 11) :
    daysBeforeMonth l (m + 1) = daysBeforeMonth l m + daysInMonth l m := by
  interval_cases m <;> cases l <;> rfl

theorem mfirst_succ (i : ℤ) :
    mfirst (i + 1) = mfirst i + daysInMonth (isLeap (i / 12)) (i % 12 + 1) := by
  unfold mfirst ymd2ord
  by_cases h : i % 12 = 11
  · have e1 : (i + 1) / 12 = i / 12 + 1 := by omega
    have e2 : (i + 1) % 12 = 0 := by omega
    rw [e1, e2, h, daysBeforeYear_succ]
    simp only [daysBeforeMonth, daysInMonth]
    cases isLeap (i / 12) <;> norm_num <;> omega
  · have e1 : (i + 1) / 12 = i / 12 := by omega
    have e2 : (i + 1) % 12 = i % 12 + 1 := by omega
    rw [e1, e2, daysBeforeMonth_succ _ _ (by omega) (by omega)]
    omega

theorem mfirst_strictMono : StrictMono mfirst := by
  apply strictMono_int_of_lt_succ
  intro i
  rw [mfirst_succ]
  have := (daysInMonth_pos (isLeap (i / 12)) (i % 12 + 1)).1
  omega

/-- Month number of a day. -/
def midx (n : ℤ) : ℤ := 12 * (ord2ymd n).y + ((ord2ymd n).m - 1)

theorem midx_div (n : ℤ) : midx n / 12 = (ord2ymd n).y ∧ midx n % 12 = (ord2ymd n).m - 1 := by
  obtain ⟨⟨h1, h2, _⟩, _⟩ := ord2ymd_spec n
  unfold midx
  omega

theorem midx_spec (n : ℤ) : mfirst (midx n) ≤ n ∧ n < mfirst (midx n + 1) ∧
    n = mfirst (midx n) + ((ord2ymd n).d - 1) := by
  obtain ⟨⟨h1, h2, h3, h4⟩, h5⟩ := ord2ymd_spec n
  obtain ⟨e1, e2⟩ := midx_div n
  have hs := mfirst_succ (midx n)
  have hm : mfirst (midx n) = n - (ord2ymd n).d + 1 := by
    unfold mfirst
    rw [e1, e2]
    unfold ymd2ord at *
    rw [show (ord2ymd n).m - 1 + 1 = (ord2ymd n).m by ring]
    omega
  rw [e1, e2, show (ord2ymd n).m - 1 + 1 = (ord2ymd n).m by ring] at hs
  omega

theorem midx_unique {n i : ℤ} (h1 : mfirst i ≤ n) (h2 : n < mfirst (i + 1)) : midx n = i := by
  obtain ⟨g1, g2, _⟩ := midx_spec n
  have a : i < midx n + 1 := mfirst_strictMono.lt_iff_lt.mp (lt_of_le_of_lt h1 g2)
  have b : midx n < i + 1 := mfirst_strictMono.lt_iff_lt.mp (lt_of_le_of_lt g1 h2)
  omega

/-- The converse inversion: every valid date is the date of its ordinal. -/
theorem ord2ymd_ymd2ord (x : YMD) (h : ValidYMD x) : ord2ymd (ymd2ord x.y x.m x.d) = x := by
  obtain ⟨h1, h2, h3, h4⟩ := h
  set n := ymd2ord x.y x.m x.d with hn
  set i := 12 * x.y + (x.m - 1) with hi
  have e1 : i / 12 = x.y := by omega
  have e2 : i % 12 + 1 = x.m := by omega
  have hm : mfirst i = n - x.d + 1 := by
    unfold mfirst; rw [e1, e2, hn]; unfold ymd2ord; omega
  have hs := mfirst_succ i
  rw [e1, e2] at hs
  have hu := midx_unique (n := n) (i := i) (by omega) (by omega)
  obtain ⟨f1, f2⟩ := midx_div n
  obtain ⟨_, _, f3⟩ := midx_spec n
  rw [hu] at f1 f2 f3
  obtain ⟨y, m, d⟩ := x
  have : ord2ymd n = ⟨(ord2ymd n).y, (ord2ymd n).m, (ord2ymd n).d⟩ := rfl
  rw [this]
  simp only [YMD.mk.injEq]
  simp only at *
  omega

end Estrade
