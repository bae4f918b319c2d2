import Verif.Lemmas.Grid

/-!
# C03 - C06: timeframes (estrade/mixins/timeframe.py)

Wall clocks are integers (see `Time.lean`); a Python datetime has `1 ≤ yearOf w`.
-/

set_option linter.style.haveILetI false

namespace Estrade

/-- Spec: a timeframe accepted by the constructor, with a positive quantity. -/
def Spec.Accepted (u : Unit') (q : ℤ) : Prop := checkTimeframe u q = .ok ⟨⟩ ∧ 0 < q ∧ u ≠ .tick

theorem accepted_tiles {u : Unit'} {q : ℤ} (h : Spec.Accepted u q) : Tiles u q := by
  obtain ⟨h1, h2, h3⟩ := h
  refine ⟨h2, ?_⟩
  have key : ∀ m : ℤ, (if q = 0 then Except.error PyErr.zeroDiv
      else if m.fmod q ≠ 0 then .error .timeframe else .ok ⟨⟩) = (.ok ⟨⟩ : Except PyErr Unit) → q ∣ m := by
    intro m hm
    rw [if_neg h2.ne', fmod_pos _ h2] at hm
    by_contra hd
    rw [if_pos (fun e => hd (Int.dvd_of_emod_eq_zero e))] at hm
    cases hm
  cases u with
  | tick => exact h3 rfl
  | year => trivial
  | _ => exact key _ h1

/-- Spec: the datetime is one whose frame start exists as a Python datetime. -/
def Spec.InRange (u : Unit') (q w : ℤ) : Prop := 1 ≤ yearOf w ∧ (u = .year → q ≤ yearOf w)

theorem inRange_startOk {u : Unit'} {q w : ℤ} (hq : 0 < q) (h : Spec.InRange u q w) : StartOk u q w := by
  cases u <;> try trivial
  · exact h.1
  · have h2 := h.2 rfl
    show 1 ≤ yearOf w - yearOf w % q
    rw [sub_emod_eq]
    have : 1 ≤ yearOf w / q := by rw [Int.le_ediv_iff_mul_le hq]; omega
    nlinarith

/-- Spec: the boundary instants of a timeframe, in terms of calendar fields only. -/
def Spec.Aligned (u : Unit') (q w : ℤ) : Prop :=
  match u with
  | .tick => True
  | .second => secondOf w % q = 0 ∧ microOf w = 0
  | .minute => minuteOf w % q = 0 ∧ secondOf w = 0 ∧ microOf w = 0
  | .hour => hourOf w % q = 0 ∧ minuteOf w = 0 ∧ secondOf w = 0 ∧ microOf w = 0
  | .day => weekdayOf w % q = 0 ∧ timeOf w = 0
  | .week => weekdayOf w = 0 ∧ timeOf w = 0
  | .month => (monthOf w - 1) % q = 0 ∧ dayOf w = 1 ∧ timeOf w = 0
  | .year => yearOf w % q = 0 ∧ monthOf w = 1 ∧ dayOf w = 1 ∧ timeOf w = 0

theorem block_aligned {U q w : ℤ} (h1 : w / U % q = 0) (h2 : w % U = 0) :
    w = (w / U / q) * (q * U) := by
  have a := Int.mul_ediv_add_emod w U
  have b := Int.mul_ediv_add_emod (w / U) q
  rw [h2] at a; rw [h1] at b
  linear_combination -a - U * b

theorem timeOf_zero {w : ℤ} (h : timeOf w = 0) : w = ordOf w * dayUs := by
  have := Int.mul_ediv_add_emod w dayUs
  unfold timeOf at h; unfold ordOf
  rw [mul_comm]; omega

/-- The grid points are exactly the aligned instants. -/
theorem aligned_iff_grid {u : Unit'} {q : ℤ} (h : Tiles u q) (w : ℤ) :
    Spec.Aligned u q w ↔ ∃ k, w = grid u q k := by
  have hT := h
  obtain ⟨hq, hu⟩ := h
  cases u with
  | tick => exact hu.elim
  | second =>
    simp only [Spec.Aligned, grid]
    rw [(secs_eq w).1, (secs_eq w).2, Int.emod_emod_of_dvd _ hu]
    constructor
    · rintro ⟨h1, h2⟩; exact ⟨_, block_aligned h1 h2⟩
    · rintro ⟨k, rfl⟩
      rw [← mul_assoc, Int.mul_ediv_cancel _ (by decide), Int.mul_emod_left, Int.mul_emod_left]
      exact ⟨rfl, rfl⟩
  | minute =>
    simp only [Spec.Aligned, grid]
    have : (secondOf w = 0 ∧ microOf w = 0) ↔ w % minUs = 0 := by
      unfold secondOf microOf timeOf dayUs hourUs minUs secUs; omega
    rw [this, (mins_eq w).1, Int.emod_emod_of_dvd _ hu]
    constructor
    · rintro ⟨h1, h2⟩; exact ⟨_, block_aligned h1 h2⟩
    · rintro ⟨k, rfl⟩
      rw [← mul_assoc, Int.mul_ediv_cancel _ (by decide), Int.mul_emod_left, Int.mul_emod_left]
      exact ⟨rfl, rfl⟩
  | hour =>
    simp only [Spec.Aligned, grid]
    have : (minuteOf w = 0 ∧ secondOf w = 0 ∧ microOf w = 0) ↔ w % hourUs = 0 := by
      unfold minuteOf secondOf microOf timeOf dayUs hourUs minUs secUs; omega
    rw [this, (hours_eq w).1, Int.emod_emod_of_dvd _ (Dvd.dvd.trans hu (by norm_num))]
    constructor
    · rintro ⟨h1, h2⟩; exact ⟨_, block_aligned h1 h2⟩
    · rintro ⟨k, rfl⟩
      rw [← mul_assoc, Int.mul_ediv_cancel _ (by decide), Int.mul_emod_left, Int.mul_emod_left]
      exact ⟨rfl, rfl⟩
  | day =>
    simp only [Spec.Aligned, grid]
    have e2 : weekdayOf w % q = (ordOf w - 1) % q := by
      unfold weekdayOf
      rw [Int.emod_emod_of_dvd _ hu]
      obtain ⟨c, hc⟩ := hu
      rw [show ordOf w + 6 = ordOf w - 1 + q * c by omega, Int.add_mul_emod_self_left]
    rw [e2]
    constructor
    · rintro ⟨h1, h2⟩
      obtain ⟨k, hk⟩ := Int.dvd_of_emod_eq_zero h1
      exact ⟨k, by rw [← hk, timeOf_zero h2, ordOf_mul]; congr 1; ring⟩
    · rintro ⟨k, rfl⟩
      rw [ordOf_mul, timeOf_mul, show q * k + 1 - 1 = q * k by ring, Int.mul_emod_right]
      exact ⟨rfl, rfl⟩
  | week =>
    simp only [Spec.Aligned, grid]
    have e2 : weekdayOf w = (ordOf w - 1) % 7 := by unfold weekdayOf; omega
    rw [e2]
    constructor
    · rintro ⟨h1, h2⟩
      obtain ⟨k, hk⟩ := Int.dvd_of_emod_eq_zero h1
      exact ⟨k, by rw [← hk, timeOf_zero h2, ordOf_mul]; congr 1; ring⟩
    · rintro ⟨k, rfl⟩
      rw [ordOf_mul, timeOf_mul, show 7 * k + 1 - 1 = 7 * k by ring, Int.mul_emod_right]
      exact ⟨rfl, rfl⟩
  | month =>
    simp only [Spec.Aligned, grid]
    obtain ⟨_, _, g3⟩ := midx_spec (ordOf w)
    have hmod : midx (ordOf w) % q = (monthOf w - 1) % q := by
      obtain ⟨c, hc⟩ := hu
      unfold monthOf midx
      rw [hc, mul_assoc, Int.mul_add_emod_self_left]
    rw [← hmod]
    constructor
    · rintro ⟨h1, h2, h3⟩
      obtain ⟨k, hk⟩ := Int.dvd_of_emod_eq_zero h1
      refine ⟨k, ?_⟩
      rw [← hk, timeOf_zero h3, ordOf_mul]
      unfold dayOf at h2
      congr 1; omega
    · rintro ⟨k, rfl⟩
      simp only [ordOf_mul, midx_mfirst, dayOf, timeOf_mul] at *
      refine ⟨Int.mul_emod_right _ _, by omega, trivial⟩
  | year =>
    simp only [Spec.Aligned, grid]
    obtain ⟨_, _, g3⟩ := midx_spec (ordOf w)
    obtain ⟨d1, d2⟩ := midx_div (ordOf w)
    constructor
    · rintro ⟨h1, h2, h3, h4⟩
      obtain ⟨k, hk⟩ := Int.dvd_of_emod_eq_zero h1
      refine ⟨k, ?_⟩
      unfold yearOf at hk; unfold monthOf at h2; unfold dayOf at h3
      rw [timeOf_zero h4, show 12 * (q * k) = midx (ordOf w) by rw [← hk, ← d1]; omega]
      congr 1; omega
    · rintro ⟨k, rfl⟩
      simp only [ordOf_mul, midx_mfirst, yearOf, monthOf, dayOf, timeOf_mul] at *
      rw [Int.mul_ediv_cancel_left _ (by norm_num)] at d1
      rw [Int.mul_emod_right] at d2
      refine ⟨by rw [← d1]; exact Int.mul_emod_right _ _, by omega, by omega, trivial⟩

/-! ## C03 -/

/-- C03: the frame of a datetime contains it.  `z` is any zone whose `shift` only moves imaginary times
forward (as dateutil's `resolve_imaginary` does). -/
theorem C03_frame_brackets (z : Zone) (hz : ∀ x, x ≤ z.resolve x) (u : Unit') (q w : ℤ)
    (ha : Spec.Accepted u q) (hr : Spec.InRange u q w) :
    ∃ s, frameStart u q w = .ok s ∧ s ≤ w ∧ w < frameEnd z u q s := by
  have hT := accepted_tiles ha
  have hs := frameStart_grid hT (inRange_startOk ha.2.1 hr)
  obtain ⟨g1, g2⟩ := gidx_spec hT w
  refine ⟨_, hs, g1, ?_⟩
  rw [frameEnd_grid hT]
  exact lt_of_lt_of_le g2 (hz _)

/-- C03 (range): for a Python datetime, `get_frame_start` raises exactly for YEAR quantities larger than the
year (ValueError: year 0 does not exist). -/
theorem C03_frame_start_raises_iff (u : Unit') (q w : ℤ) (ha : Spec.Accepted u q) (hw : 1 ≤ yearOf w)
    (e : PyErr) : frameStart u q w = .error e ↔ e = .value ∧ u = .year ∧ yearOf w < q := by
  have hT := accepted_tiles ha
  by_cases hy : u = .year ∧ yearOf w < q
  · obtain ⟨rfl, hlt⟩ := hy
    have : frameStart .year q w = .error .value := by
      simp only [frameStart, if_neg ha.2.1.ne', fmod_pos _ ha.2.1, replaceFirst]
      rw [Int.emod_eq_of_lt (by omega) hlt, if_pos (by omega)]
    rw [this]
    simp [hlt, eq_comm]
  · rw [frameStart_grid hT (inRange_startOk ha.2.1 ⟨hw, fun h => by
      by_contra hc; exact hy ⟨h, by omega⟩⟩)]
    simp only [reduceCtorEq, false_iff]
    rintro ⟨-, h1, h2⟩
    exact hy ⟨h1, h2⟩

/-- Non-vacuity: 29 February 2020 13:47:05.5 with 15 minutes, and with 3 months. -/
example : Spec.Accepted .minute 15 ∧ Spec.Accepted .month 3 ∧
    Spec.InRange .month 3 (midnight 2020 2 29 + 49625500000) ∧
    frameStart .month 3 (midnight 2020 2 29 + 49625500000) = .ok (midnight 2020 1 1) ∧
    frameStart .minute 15 (midnight 2020 2 29 + 49625500000)
      = .ok (midnight 2020 2 29 + 13 * hourUs + 45 * minUs) := by
  refine ⟨⟨rfl, by decide, by decide⟩, ⟨rfl, by decide, by decide⟩, ⟨by decide +kernel, by decide⟩,
    by decide +kernel, by decide +kernel⟩

/-! ## C04 -/

/-- C04: the frame start is the latest aligned instant not after the datetime. -/
theorem C04_frame_start_greatest (u : Unit') (q w : ℤ) (ha : Spec.Accepted u q)
    (hr : Spec.InRange u q w) :
    ∃ s, frameStart u q w = .ok s ∧ Spec.Aligned u q s ∧ s ≤ w ∧
      ∀ a, Spec.Aligned u q a → a ≤ w → a ≤ s := by
  have hT := accepted_tiles ha
  obtain ⟨g1, g2⟩ := gidx_spec hT w
  refine ⟨_, frameStart_grid hT (inRange_startOk ha.2.1 hr), (aligned_iff_grid hT _).mpr ⟨_, rfl⟩, g1, ?_⟩
  intro a hal hle
  obtain ⟨k, rfl⟩ := (aligned_iff_grid hT _).mp hal
  have := (grid_strictMono hT).lt_iff_lt.mp (lt_of_le_of_lt hle g2)
  exact (grid_strictMono hT).monotone (by omega)

/-- The second half of C04, for every zone: the end of an aligned instant is the next aligned instant. -/
def Spec.C04End : Prop := ∀ (z : Zone) (u : Unit') (q s : ℤ), (∀ x, x ≤ z.resolve x) → Spec.Accepted u q →
  Spec.Aligned u q s → Spec.Aligned u q (frameEnd z u q s) ∧ s < frameEnd z u q s ∧
      ∀ a, Spec.Aligned u q a → s < a → frameEnd z u q s ≤ a

/-- Spec: no aligned instant is skipped by a clock change of the zone. -/
def Spec.KeepsGrid (z : Zone) (u : Unit') (q : ℤ) : Prop := ∀ n, Spec.Aligned u q n → z.resolve n = n

/-- C04, partial: `Spec.C04End` for the zones whose clock changes skip no aligned instant. -/
theorem C04_frame_end_least_partial (z : Zone) (u : Unit') (q s : ℤ) (hz : Spec.KeepsGrid z u q)
    (ha : Spec.Accepted u q) (hs : Spec.Aligned u q s) :
    Spec.Aligned u q (frameEnd z u q s) ∧ s < frameEnd z u q s ∧
      ∀ a, Spec.Aligned u q a → s < a → frameEnd z u q s ≤ a := by
  have hT := accepted_tiles ha
  obtain ⟨k, rfl⟩ := (aligned_iff_grid hT _).mp hs
  rw [frameEnd_grid_kept hT (hz _ ((aligned_iff_grid hT _).mpr ⟨_, rfl⟩))]
  refine ⟨(aligned_iff_grid hT _).mpr ⟨_, rfl⟩, grid_strictMono hT (by omega), ?_⟩
  intro a hal hlt
  obtain ⟨j, rfl⟩ := (aligned_iff_grid hT _).mp hal
  have := (grid_strictMono hT).lt_iff_lt.mp hlt
  exact (grid_strictMono hT).monotone (by omega)

/-- C04, partial, every zone: the end is never before the next aligned instant, and is that instant whenever
it exists in the zone.  Missing from `Spec.C04End`: aligned instants skipped by a clock change. -/
theorem C04_frame_end_existing_partial (z : Zone) (u : Unit') (q s : ℤ) (ha : Spec.Accepted u q)
    (hs : Spec.Aligned u q s) : ∃ n, Spec.Aligned u q n ∧ s < n ∧
      (∀ a, Spec.Aligned u q a → s < a → n ≤ a) ∧ frameEnd z u q s = z.resolve n := by
  have hT := accepted_tiles ha
  obtain ⟨k, rfl⟩ := (aligned_iff_grid hT _).mp hs
  refine ⟨grid u q (k + 1), (aligned_iff_grid hT _).mpr ⟨_, rfl⟩, grid_strictMono hT (by omega), ?_,
    frameEnd_grid hT k⟩
  intro a hal hlt
  obtain ⟨j, rfl⟩ := (aligned_iff_grid hT _).mp hal
  have := (grid_strictMono hT).lt_iff_lt.mp hlt
  exact (grid_strictMono hT).monotone (by omega)

theorem saoPaulo2018_forward : ∀ x, x ≤ Zone.saoPaulo2018.resolve x := by
  intro x
  simp only [Zone.saoPaulo2018]
  split
  · have : (0 : ℤ) < hourUs := by decide
    omega
  · exact le_rfl

/-- C04 is false of the code in zones whose clocks skip an aligned instant: the day of 3 November 2018 in
Sao Paulo ends at 01:00 on the 4th, while the frame of a later tick of the 4th starts at 00:00. -/
theorem C04_false : ¬ Spec.C04End := by
  intro h
  have := (h Zone.saoPaulo2018 .day 1 (midnight 2018 11 3) saoPaulo2018_forward
    ⟨rfl, by decide, by decide⟩ (by unfold Spec.Aligned; decide +kernel)).1
  revert this
  unfold Spec.Aligned
  decide +kernel

/-- The clock changes of Paris skip no midnight, so day frames are regular there; hour frames are not. -/
theorem paris2019_keeps_days : Spec.KeepsGrid Zone.paris2019 .day 1 ∧ ¬ Spec.KeepsGrid Zone.paris2019 .hour 1 := by
  constructor
  · intro n hn
    obtain ⟨k, rfl⟩ := (aligned_iff_grid (q := 1) ⟨by decide, by decide⟩ _).mp hn
    simp only [Zone.paris2019, grid]
    rw [if_neg]
    have h1 : midnight 2019 3 31 = 737149 * dayUs := by decide +kernel
    have h2 : dayUs = 24 * hourUs := by decide +kernel
    have h3 : 0 < hourUs := by decide +kernel
    rw [h1, h2]
    rintro ⟨h4, h5⟩
    have h6 : 737149 < 1 * k + 1 := by
      by_contra hc
      have := mul_le_mul_of_nonneg_right (not_lt.mp hc) (show 0 ≤ 24 * hourUs by omega)
      linarith
    have h7 : 1 * k + 1 < 737150 := by
      by_contra hc
      have := mul_le_mul_of_nonneg_right (not_lt.mp hc) (show 0 ≤ 24 * hourUs by omega)
      linarith
    omega
  · intro h
    have := h (midnight 2019 3 31 + 2 * hourUs) (by unfold Spec.Aligned; decide +kernel)
    revert this
    decide +kernel

/-- Non-vacuity: Monday 4 January 2021 is aligned to weeks, Tuesday is not. -/
example : Spec.KeepsGrid Zone.utc .week 1 ∧ Spec.Accepted .week 1 ∧ Spec.Aligned .week 1 (midnight 2021 1 4) ∧
    ¬ Spec.Aligned .week 1 (midnight 2021 1 5) := by
  refine ⟨fun _ _ => rfl, ⟨rfl, by decide, by decide⟩, ?_, ?_⟩ <;>
    unfold Spec.Aligned <;> decide +kernel

/-! ## C05 -/

/-- C05: idempotent. -/
theorem C05_start_idempotent (u : Unit') (q w s : ℤ) (ha : Spec.Accepted u q)
    (hr : Spec.InRange u q w) (h : frameStart u q w = .ok s) (hs : Spec.InRange u q s) :
    frameStart u q s = .ok s := by
  have hT := accepted_tiles ha
  rw [frameStart_grid hT (inRange_startOk ha.2.1 hr)] at h
  rw [frameStart_grid hT (inRange_startOk ha.2.1 hs)]
  cases h
  rw [gidx_grid hT]

/-- C05: monotone. -/
theorem C05_start_mono (u : Unit') (q w w' s s' : ℤ) (ha : Spec.Accepted u q)
    (hr : Spec.InRange u q w) (hr' : Spec.InRange u q w') (h : frameStart u q w = .ok s)
    (h' : frameStart u q w' = .ok s') (hle : w ≤ w') : s ≤ s' := by
  have hT := accepted_tiles ha
  rw [frameStart_grid hT (inRange_startOk ha.2.1 hr)] at h
  rw [frameStart_grid hT (inRange_startOk ha.2.1 hr')] at h'
  cases h; cases h'
  exact (grid_strictMono hT).monotone (gidx_mono hT hle)

/-- C05: the end of a frame is a frame start. -/
theorem C05_end_is_start (z : Zone) (u : Unit') (q w s : ℤ) (hz : Spec.KeepsGrid z u q)
    (ha : Spec.Accepted u q) (hr : Spec.InRange u q w) (h : frameStart u q w = .ok s)
    (he : Spec.InRange u q (frameEnd z u q s)) :
    frameStart u q (frameEnd z u q s) = .ok (frameEnd z u q s) := by
  have hT := accepted_tiles ha
  rw [frameStart_grid hT (inRange_startOk ha.2.1 hr)] at h
  rw [frameStart_grid hT (inRange_startOk ha.2.1 he)]
  cases h
  rw [frameEnd_grid_kept hT (hz _ ((aligned_iff_grid hT _).mpr ⟨_, rfl⟩)), gidx_grid hT]

/-- C05: two datetimes share a frame exactly when the later one is before the end of the frame of the
earlier one. -/
theorem C05_same_frame_iff (z : Zone) (u : Unit') (q w w' s s' : ℤ) (hz : Spec.KeepsGrid z u q)
    (ha : Spec.Accepted u q) (hr : Spec.InRange u q w) (hr' : Spec.InRange u q w') (hle : w ≤ w')
    (h : frameStart u q w = .ok s) (h' : frameStart u q w' = .ok s') :
    s = s' ↔ w' < frameEnd z u q s := by
  have hT := accepted_tiles ha
  rw [frameStart_grid hT (inRange_startOk ha.2.1 hr)] at h
  rw [frameStart_grid hT (inRange_startOk ha.2.1 hr')] at h'
  cases h; cases h'
  rw [frameEnd_grid_kept hT (hz _ ((aligned_iff_grid hT _).mpr ⟨_, rfl⟩))]
  constructor
  · intro he
    have := (gidx_spec hT w').2
    rwa [← (grid_strictMono hT).injective he] at this
  · intro hlt
    rw [gidx_unique hT ((gidx_spec hT w).1.trans hle) hlt]

/-- Non-vacuity: two instants of the same 20-minute frame and one of the next. -/
example : frameStart .minute 20 (61 * minUs) = .ok (60 * minUs) ∧
    frameStart .minute 20 (79 * minUs) = .ok (60 * minUs) ∧
    frameStart .minute 20 (80 * minUs) = .ok (80 * minUs) := by decide +kernel

/-! ## C06 -/

/-- Spec: the quantities the property wants accepted. -/
def Spec.Usable (u : Unit') (q : ℤ) : Prop :=
  0 < q ∧ match u with
    | .tick => True
    | .second => q ∣ 60
    | .minute => q ∣ 60
    | .hour => q ∣ 12
    | .day => q ∣ 7
    | .week => q = 1
    | .month => q ∣ 12
    | .year => True

/-- C06, full statement: validation accepts exactly the usable quantities. -/
def Spec.C06 : Prop := ∀ u q, checkTimeframe u q = .ok ⟨⟩ ↔ Spec.Usable u q

/-- C06 is false of the code: -5 seconds and 0 years are accepted. -/
theorem C06_false : ¬ Spec.C06 := by
  intro h
  have := ((h .second (-5)).mp rfl).1
  omega

theorem C06_zero_year_accepted : checkTimeframe .year 0 = .ok ⟨⟩ ∧ checkTimeframe .tick 0 = .ok ⟨⟩ :=
  ⟨rfl, rfl⟩

/-- C06 for positive quantities: exactly the usable ones are accepted, the others raise
TimeFrameException. Missing from C06: negative quantities and zero (see `C06_decision`). -/
theorem C06_validation_partial (u : Unit') (q : ℤ) (hq : 0 < q) :
    (checkTimeframe u q = .ok ⟨⟩ ↔ Spec.Usable u q) ∧
    (checkTimeframe u q ≠ .ok ⟨⟩ → checkTimeframe u q = .error .timeframe) := by
  have key : ∀ m : ℤ, (if q = 0 then Except.error PyErr.zeroDiv
      else if m.fmod q ≠ 0 then .error .timeframe else .ok ⟨⟩) =
      if q ∣ m then (.ok ⟨⟩ : Except PyErr Unit) else .error .timeframe := by
    intro m
    rw [if_neg hq.ne', fmod_pos _ hq]
    by_cases hd : q ∣ m
    · rw [if_pos hd, if_neg (not_not.mpr (Int.emod_eq_zero_of_dvd hd))]
    · rw [if_neg hd, if_pos (fun e => hd (Int.dvd_of_emod_eq_zero e))]
  have h1 : q ∣ 1 ↔ q = 1 := ⟨fun h => Int.eq_one_of_dvd_one hq.le h, fun h => by rw [h]⟩
  cases u <;> simp only [checkTimeframe, Unit'.modulo, Spec.Usable, key, hq, true_and, h1]
  case tick => simp
  case year => simp
  all_goals (split_ifs with h <;> simp [h])

/-- C06 for all integers: what the constructor really does. -/
theorem C06_decision (u : Unit') (q : ℤ) : checkTimeframe u q =
    match u.modulo with
    | none => .ok ⟨⟩
    | some m => if q = 0 then .error .zeroDiv else if q ∣ m then .ok ⟨⟩ else .error .timeframe := by
  unfold checkTimeframe
  cases u.modulo with
  | none => rfl
  | some m =>
    simp only
    by_cases hq : q = 0
    · rw [if_pos hq, if_pos hq]
    · rw [if_neg hq, if_neg hq]
      by_cases hd : q ∣ m
      · rw [if_pos hd, if_neg (not_not.mpr (Int.fmod_eq_zero_of_dvd hd))]
      · rw [if_neg hd, if_pos (fun e => hd (Int.dvd_of_fmod_eq_zero e))]

/-- Non-vacuity. -/
example : checkTimeframe .hour 4 = .ok ⟨⟩ ∧ checkTimeframe .hour 5 = .error .timeframe ∧
    checkTimeframe .hour 0 = .error .zeroDiv := ⟨rfl, rfl, rfl⟩

end Estrade
