import Verif.Lemmas.Calendar
import Mathlib.Tactic.LinearCombination

/-! # Timeframe boundaries form a grid -/

namespace Estrade

/-- Quantities that tile the parent unit. -/
def Tiles (u : Unit') (q : ℤ) : Prop :=
  0 < q ∧ match u with
    | .tick => False
    | .second => q ∣ 60
    | .minute => q ∣ 60
    | .hour => q ∣ 12
    | .day => q ∣ 7
    | .week => q ∣ 1
    | .month => q ∣ 12
    | .year => True

/-- The `k`-th boundary of a timeframe. -/
def grid (u : Unit') (q k : ℤ) : ℤ :=
  match u with
  | .tick => k
  | .second => k * (q * secUs)
  | .minute => k * (q * minUs)
  | .hour => k * (q * hourUs)
  | .day => (q * k + 1) * dayUs
  | .week => (7 * k + 1) * dayUs
  | .month => mfirst (q * k) * dayUs
  | .year => mfirst (12 * (q * k)) * dayUs

/-- The number of the period that contains a wall clock. -/
def gidx (u : Unit') (q w : ℤ) : ℤ :=
  match u with
  | .tick => w
  | .second => w / secUs / q
  | .minute => w / minUs / q
  | .hour => w / hourUs / q
  | .day => (ordOf w - 1) / q
  | .week => (ordOf w - 1) / 7
  | .month => midx (ordOf w) / q
  | .year => midx (ordOf w) / 12 / q

/-- When `get_frame_start` does not raise. -/
def StartOk (u : Unit') (q w : ℤ) : Prop :=
  match u with
  | .month => 1 ≤ yearOf w
  | .year => 1 ≤ yearOf w - yearOf w % q
  | _ => True

theorem grid_strictMono {u : Unit'} {q : ℤ} (h : Tiles u q) : StrictMono (grid u q) := by
  obtain ⟨hq, hu⟩ := h
  intro a b hab
  have hd : (0 : ℤ) < dayUs := by decide
  have hs : (0 : ℤ) < secUs := by decide
  have hm : (0 : ℤ) < minUs := by decide
  have hh : (0 : ℤ) < hourUs := by decide
  have hqab : q * a < q * b := mul_lt_mul_of_pos_left hab hq
  cases u with
  | tick => exact hu.elim
  | second => exact mul_lt_mul_of_pos_right hab (mul_pos hq hs)
  | minute => exact mul_lt_mul_of_pos_right hab (mul_pos hq hm)
  | hour => exact mul_lt_mul_of_pos_right hab (mul_pos hq hh)
  | day => exact mul_lt_mul_of_pos_right (by omega) hd
  | week => exact mul_lt_mul_of_pos_right (by omega) hd
  | month => exact mul_lt_mul_of_pos_right (mfirst_strictMono hqab) hd
  | year => exact mul_lt_mul_of_pos_right (mfirst_strictMono (by omega)) hd

theorem block_bounds (U q w : ℤ) (hU : 0 < U) (hq : 0 < q) :
    (w / U / q) * (q * U) ≤ w ∧ w < (w / U / q + 1) * (q * U) := by
  rw [Int.ediv_ediv_of_nonneg hU.le, mul_comm q U]
  exact ⟨Int.ediv_mul_le _ (mul_pos hU hq).ne', Int.lt_ediv_add_one_mul_self _ (mul_pos hU hq)⟩

theorem mul_day_le {a w : ℤ} : a * dayUs ≤ w ↔ a ≤ ordOf w := by
  unfold ordOf
  rw [Int.le_ediv_iff_mul_le (by decide)]

theorem lt_mul_day {a w : ℤ} : w < a * dayUs ↔ ordOf w < a := by
  rw [← not_le, ← not_le, mul_day_le]

theorem div_bounds (x q : ℤ) (hq : 0 < q) : q * (x / q) ≤ x ∧ x < q * (x / q + 1) := by
  have h1 := Int.mul_ediv_add_emod x q
  have h2 := Int.emod_nonneg x hq.ne'
  have h3 := Int.emod_lt_of_pos x hq
  constructor
  · omega
  · rw [mul_add]; omega

theorem gidx_spec {u : Unit'} {q : ℤ} (h : Tiles u q) (w : ℤ) :
    grid u q (gidx u q w) ≤ w ∧ w < grid u q (gidx u q w + 1) := by
  obtain ⟨hq, hu⟩ := h
  cases u with
  | tick => exact hu.elim
  | second => exact block_bounds _ _ _ (by decide) hq
  | minute => exact block_bounds _ _ _ (by decide) hq
  | hour => exact block_bounds _ _ _ (by decide) hq
  | day =>
    simp only [grid, gidx, mul_day_le, lt_mul_day]
    have := div_bounds (ordOf w - 1) q hq
    omega
  | week =>
    simp only [grid, gidx, mul_day_le, lt_mul_day]
    omega
  | month =>
    simp only [grid, gidx, mul_day_le, lt_mul_day]
    obtain ⟨g1, g2, _⟩ := midx_spec (ordOf w)
    obtain ⟨b1, b2⟩ := div_bounds (midx (ordOf w)) q hq
    exact ⟨(mfirst_strictMono.monotone b1).trans g1,
      lt_of_lt_of_le g2 (mfirst_strictMono.monotone (by omega))⟩
  | year =>
    simp only [grid, gidx, mul_day_le, lt_mul_day]
    obtain ⟨g1, g2, _⟩ := midx_spec (ordOf w)
    obtain ⟨b1, b2⟩ := div_bounds (midx (ordOf w) / 12) q hq
    exact ⟨(mfirst_strictMono.monotone (by omega)).trans g1,
      lt_of_lt_of_le g2 (mfirst_strictMono.monotone (by omega))⟩

theorem gidx_unique {u : Unit'} {q : ℤ} (h : Tiles u q) {w k : ℤ} (h1 : grid u q k ≤ w)
    (h2 : w < grid u q (k + 1)) : gidx u q w = k := by
  obtain ⟨g1, g2⟩ := gidx_spec h w
  have hm := grid_strictMono h
  have a : k < gidx u q w + 1 := hm.lt_iff_lt.mp (lt_of_le_of_lt h1 g2)
  have b : gidx u q w < k + 1 := hm.lt_iff_lt.mp (lt_of_le_of_lt g1 h2)
  omega

theorem gidx_grid {u : Unit'} {q : ℤ} (h : Tiles u q) (k : ℤ) : gidx u q (grid u q k) = k :=
  gidx_unique h le_rfl (grid_strictMono h (by omega))

theorem gidx_mono {u : Unit'} {q : ℤ} (h : Tiles u q) {a b : ℤ} (hab : a ≤ b) :
    gidx u q a ≤ gidx u q b := by
  have h1 := (gidx_spec h a).1
  have h2 := (gidx_spec h b).2
  have : gidx u q a < gidx u q b + 1 :=
    (grid_strictMono h).lt_iff_lt.mp (lt_of_le_of_lt (h1.trans hab) h2)
  omega

/-! ## `get_frame_start` is the grid -/

theorem sub_emod_eq (x q : ℤ) : x - x % q = q * (x / q) := by
  have := Int.mul_ediv_add_emod x q; omega

theorem secs_eq (w : ℤ) : secondOf w = w / secUs % 60 ∧ microOf w = w % secUs := by
  unfold secondOf microOf timeOf dayUs hourUs minUs secUs; omega

theorem mins_eq (w : ℤ) : minuteOf w = w / minUs % 60 ∧
    secondOf w * secUs + microOf w = w % minUs := by
  unfold minuteOf secondOf microOf timeOf dayUs hourUs minUs secUs; omega

theorem hours_eq (w : ℤ) : hourOf w = w / hourUs % 24 ∧
    minuteOf w * minUs + secondOf w * secUs + microOf w = w % hourUs := by
  unfold hourOf minuteOf secondOf microOf timeOf dayUs hourUs minUs secUs; omega

theorem days_eq (w : ℤ) :
    hourOf w * hourUs + minuteOf w * minUs + secondOf w * secUs + microOf w = w % dayUs := by
  unfold hourOf minuteOf secondOf microOf timeOf dayUs hourUs minUs secUs; omega

theorem block_start (U q w : ℤ) :
    w - ((w / U % q) * U + w % U) = w / U / q * (q * U) := by
  have h1 := Int.mul_ediv_add_emod w U
  have h2 := sub_emod_eq (w / U) q
  have : w - ((w / U % q) * U + w % U) = (w / U - w / U % q) * U := by
    rw [sub_mul]
    have : w / U * U = U * (w / U) := mul_comm _ _
    omega
  rw [this, h2]; ring

theorem fmod_pos (x : ℤ) {q : ℤ} (hq : 0 < q) : x.fmod q = x % q := by
  rw [Int.fmod_eq_emod_of_nonneg _ hq.le]

theorem frameStart_grid {u : Unit'} {q w : ℤ} (h : Tiles u q) (hw : StartOk u q w) :
    frameStart u q w = .ok (grid u q (gidx u q w)) := by
  obtain ⟨hq, hu⟩ := h
  have hq0 : q ≠ 0 := hq.ne'
  cases u with
  | tick => exact hu.elim
  | second =>
    simp only [frameStart, if_neg hq0, grid, gidx, fmod_pos _ hq]
    rw [(secs_eq w).1, (secs_eq w).2, Int.emod_emod_of_dvd _ hu, block_start]
  | minute =>
    simp only [frameStart, if_neg hq0, grid, gidx, fmod_pos _ hq]
    rw [(mins_eq w).1, Int.emod_emod_of_dvd _ hu, add_assoc, (mins_eq w).2, block_start]
  | hour =>
    simp only [frameStart, if_neg hq0, grid, gidx, fmod_pos _ hq]
    rw [(hours_eq w).1, Int.emod_emod_of_dvd _ (Dvd.dvd.trans hu (by norm_num)),
      add_assoc, add_assoc, ← add_assoc (minuteOf w * minUs), (hours_eq w).2, block_start]
  | day =>
    simp only [frameStart, if_neg hq0, grid, gidx, fmod_pos _ hq]
    have e : (weekdayOf w % q * dayUs + hourOf w * hourUs + minuteOf w * minUs + secondOf w * secUs
        + microOf w) = weekdayOf w % q * dayUs + w % dayUs := by
      rw [← days_eq w]; ring
    rw [e]
    have e2 : weekdayOf w % q = (ordOf w - 1) % q := by
      unfold weekdayOf
      rw [Int.emod_emod_of_dvd _ hu]
      obtain ⟨c, hc⟩ := hu
      rw [show ordOf w + 6 = ordOf w - 1 + q * c by omega, Int.add_mul_emod_self_left]
    rw [e2]
    have e3 := sub_emod_eq (ordOf w - 1) q
    have e4 : w = dayUs * ordOf w + w % dayUs := (Int.mul_ediv_add_emod w dayUs).symm
    rw [← e3]
    congr 1
    linear_combination e4
  | week =>
    simp only [frameStart, grid, gidx]
    have e : (weekdayOf w * dayUs + hourOf w * hourUs + minuteOf w * minUs + secondOf w * secUs
        + microOf w) = weekdayOf w * dayUs + w % dayUs := by
      rw [← days_eq w]; ring
    rw [e]
    have e2 : weekdayOf w = (ordOf w - 1) % 7 := by unfold weekdayOf; omega
    rw [e2]
    have e3 := sub_emod_eq (ordOf w - 1) 7
    have e4 : w = dayUs * ordOf w + w % dayUs := (Int.mul_ediv_add_emod w dayUs).symm
    rw [← e3]
    congr 1
    linear_combination e4
  | month =>
    simp only [frameStart, if_neg hq0, grid, gidx, fmod_pos _ hq, replaceFirst]
    obtain ⟨⟨m1, m2, _⟩, _⟩ := ord2ymd_spec (ordOf w)
    obtain ⟨d1, d2⟩ := midx_div (ordOf w)
    have hy : 1 ≤ yearOf w := hw
    have hr := Int.emod_nonneg (monthOf w - 1) hq0
    have hle : (monthOf w - 1) % q ≤ monthOf w - 1 := by
      have h1 := sub_emod_eq (monthOf w - 1) q
      have h2 : 0 ≤ q * ((monthOf w - 1) / q) :=
        mul_nonneg hq.le (Int.ediv_nonneg (by unfold monthOf; omega) hq.le)
      omega
    rw [if_neg (by unfold monthOf at *; omega)]
    congr 1
    unfold midnight
    congr 1
    -- the month number of the start
    have hmod : midx (ordOf w) % q = (monthOf w - 1) % q := by
      obtain ⟨c, hc⟩ := hu
      unfold monthOf midx
      rw [hc, mul_assoc, Int.mul_add_emod_self_left]
    rw [← sub_emod_eq, hmod]
    unfold mfirst
    have e1 : (midx (ordOf w) - (monthOf w - 1) % q) / 12 = yearOf w := by
      unfold midx monthOf yearOf at *; omega
    have e2 : (midx (ordOf w) - (monthOf w - 1) % q) % 12 + 1 = monthOf w - (monthOf w - 1) % q := by
      unfold midx monthOf at *; omega
    rw [e1, e2]
  | year =>
    simp only [frameStart, if_neg hq0, grid, gidx, fmod_pos _ hq, replaceFirst]
    obtain ⟨d1, d2⟩ := midx_div (ordOf w)
    have hy : 1 ≤ yearOf w - yearOf w % q := hw
    rw [if_neg (by omega)]
    congr 1
    unfold midnight
    congr 1
    rw [d1, ← sub_emod_eq]
    unfold mfirst
    rw [Int.mul_ediv_cancel_left _ (by norm_num), Int.mul_emod_right]
    rfl

/-! ## `get_frame_end` is the next boundary -/

theorem ordOf_mul (a : ℤ) : ordOf (a * dayUs) = a := Int.mul_ediv_cancel _ (by decide)
theorem timeOf_mul (a : ℤ) : timeOf (a * dayUs) = 0 := Int.mul_emod_left _ _

theorem midx_mfirst (i : ℤ) : midx (mfirst i) = i :=
  midx_unique le_rfl (mfirst_strictMono (by omega))

theorem shiftMonths_first (i n : ℤ) : shiftMonths (mfirst i * dayUs) n = mfirst (i + n) * dayUs := by
  unfold shiftMonths
  obtain ⟨_, _, h3⟩ := midx_spec (mfirst i)
  rw [midx_mfirst] at h3
  have hd : dayOf (mfirst i * dayUs) = 1 := by
    unfold dayOf; rw [ordOf_mul]; omega
  have hi : yearOf (mfirst i * dayUs) * 12 + (monthOf (mfirst i * dayUs) - 1) = i := by
    unfold yearOf monthOf; rw [ordOf_mul]
    have := midx_mfirst i
    unfold midx at this
    omega
  simp only [hd, hi, timeOf_mul]
  rw [min_eq_left (by have := (daysInMonth_pos (isLeap ((i + n) / 12)) ((i + n) % 12 + 1)).1; omega)]
  unfold midnight mfirst
  ring

theorem shiftUnit_grid {u : Unit'} {q : ℤ} (h : Tiles u q) (k : ℤ) :
    shiftUnit u q (grid u q k) = grid u q (k + 1) := by
  obtain ⟨hq, hu⟩ := h
  cases u with
  | tick => exact hu.elim
  | second => simp only [shiftUnit, grid]; ring
  | minute => simp only [shiftUnit, grid]; ring
  | hour => simp only [shiftUnit, grid]; ring
  | day => simp only [shiftUnit, grid]; ring
  | week =>
    have : q = 1 := Int.eq_one_of_dvd_one hq.le hu
    simp only [shiftUnit, grid, this]; ring
  | month => simp only [shiftUnit, grid, shiftMonths_first]; congr 2; ring
  | year => simp only [shiftUnit, grid, shiftMonths_first]; congr 2; ring

theorem Tiles.ne_tick {u : Unit'} {q : ℤ} (h : Tiles u q) : u ≠ .tick := by
  rintro rfl; exact h.2.elim

theorem frameEnd_grid {z : Zone} {u : Unit'} {q : ℤ} (h : Tiles u q) (k : ℤ) :
    frameEnd z u q (grid u q k) = z.resolve (grid u q (k + 1)) := by
  unfold frameEnd
  rw [if_neg h.ne_tick, shiftUnit_grid h]

theorem frameEnd_grid_kept {z : Zone} {u : Unit'} {q : ℤ} (h : Tiles u q) {k : ℤ}
    (hz : z.resolve (grid u q (k + 1)) = grid u q (k + 1)) :
    frameEnd z u q (grid u q k) = grid u q (k + 1) := by
  rw [frameEnd_grid h, hz]

end Estrade
