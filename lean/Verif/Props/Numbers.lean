import Verif.Tick
import Verif.Float64

/-!
# C01, C02, C55: ticks and rounding
-/

set_option linter.style.haveILetI false
set_option linter.unusedSectionVars false

namespace Estrade

section
variable [Arith]

/-! ## C01 -/

/-- Spec: the float a Python argument stands for, if it is a number. -/
def Spec.FloatOf : PyVal → ℚ → Prop
  | .int n, x => x = fl n
  | .float y, x => x = y
  | .other, _ => False

/-- Spec: not an int or float. -/
def Spec.NotNum (v : PyVal) : Prop := ∀ x, ¬ Spec.FloatOf v x

/-- C01 (success): exactly the zoned datetimes with numeric, ordered quotes are accepted, and the tick
carries them. -/
theorem C01_tick_accepts_iff (d : RawDT) (bid ask : PyVal) (t : Tick) :
    Tick.new d bid ask = .ok t ↔
      d = .aware t.dt ∧ Spec.FloatOf bid t.bid ∧ Spec.FloatOf ask t.ask ∧ t.bid ≤ t.ask := by
  obtain ⟨dt, b, a⟩ := t
  cases d <;> cases ask <;> cases bid <;>
    simp only [Tick.new, RawDT.check, PyVal.toFloat, bind, Except.bind, Spec.FloatOf,
      RawDT.aware.injEq, reduceCtorEq, false_and, and_false] <;>
    split_ifs with h
  all_goals first
    | (simp only [false_iff]
       rintro ⟨rfl, rfl, rfl, h2⟩
       exact absurd h (not_lt.mpr h2))
    | (simp only [Except.ok.injEq, Tick.mk.injEq]
       constructor
       · rintro ⟨rfl, rfl, rfl⟩; exact ⟨rfl, rfl, rfl, not_lt.mp h⟩
       · rintro ⟨rfl, rfl, rfl, -⟩; exact ⟨rfl, rfl, rfl⟩)

/-- C01 (failure): the datetime is checked first (TimeException); every other rejection is a
TickException; these are the only outcomes. -/
theorem C01_tick_rejects_iff (d : RawDT) (bid ask : PyVal) (e : PyErr) :
    Tick.new d bid ask = .error e ↔
      (d = .naive ∧ e = .time) ∨
      ((∃ dt, d = .aware dt) ∧ e = .tick ∧
        (Spec.NotNum ask ∨ Spec.NotNum bid ∨
          ∃ x y, Spec.FloatOf bid x ∧ Spec.FloatOf ask y ∧ y < x)) := by
  cases d <;> cases ask <;> cases bid <;>
    simp [Tick.new, RawDT.check, PyVal.toFloat, bind, Except.bind, Spec.FloatOf, Spec.NotNum,
      eq_comm] <;> (split_ifs <;> simp_all)

/-- C01 (invariant): an accepted tick is ordered and has a non-negative spread. -/
theorem C01_tick_ordered (d : RawDT) (bid ask : PyVal) (t : Tick)
    (h : Tick.new d bid ask = .ok t) : t.bid ≤ t.ask ∧ 0 ≤ t.spread := by
  have := ((C01_tick_accepts_iff d bid ask t).mp h).2.2.2
  exact ⟨this, rnd_nonneg (fsub_nonneg this)⟩

end

/-- Non-vacuity: mixed int/float arguments are accepted, reversed quotes rejected. -/
example : letI := Arith.exact
    Tick.new (.aware ⟨0, 0, 0⟩) (.int 2) (.float (5 / 2)) = .ok ⟨⟨0, 0, 0⟩, 2, 5 / 2⟩ := by
  letI := Arith.exact
  exact (C01_tick_accepts_iff _ _ _ _).mpr ⟨rfl, rfl, rfl, by norm_num⟩
example : letI := Arith.exact
    Tick.new (.aware ⟨0, 0, 0⟩) (.int 3) (.float (5 / 2)) = .error .tick := by
  letI := Arith.exact
  exact (C01_tick_rejects_iff _ _ _ _).mpr (.inr ⟨⟨_, rfl⟩, rfl, .inr (.inr ⟨3, 5 / 2, rfl, rfl, by norm_num⟩)⟩)

/-! ## C55 -/

/-- Spec: `n` is the number of cents that half-even rounding must select for `x`. -/
def Spec.NearestCent (x : ℚ) (n : ℤ) : Prop :=
  (∀ m : ℤ, |x - n / 100| ≤ |x - m / 100|) ∧
  (∀ m : ℤ, m ≠ n → |x - m / 100| = |x - n / 100| → n % 2 = 0)

theorem nearestCent_unique {x : ℚ} {n m : ℤ} (hn : Spec.NearestCent x n) (hm : Spec.NearestCent x m) :
    n = m := by
  by_contra hne
  have e : |x - m / 100| = |x - n / 100| := le_antisymm (hm.1 n) (hn.1 m)
  have p1 := hn.2 m (Ne.symm hne) e
  have p2 := hm.2 n hne e.symm
  -- the midpoint is nearer than both
  have h3 := hn.1 ((n + m) / 2)
  have hq : (((n + m) / 2 : ℤ) : ℚ) = ((n : ℚ) + m) / 2 := by
    rw [Int.cast_div (by omega) (by norm_num)]; push_cast; ring
  rw [hq] at h3
  have hx : x = ((n : ℚ) + m) / 200 := by
    rcases abs_eq_abs.mp e with h | h
    · exfalso; apply hne; have : (n : ℚ) = m := by linarith
      exact_mod_cast this
    · linarith
  rw [show x - ((n : ℚ) + m) / 2 / 100 = 0 by rw [hx]; ring, abs_zero, abs_nonpos_iff] at h3
  apply hne
  have : (n : ℚ) = m := by linarith
  exact_mod_cast this

theorem cent_nearestCent (x : ℚ) : Spec.NearestCent x (rhe (x * 100)) := by
  have key : ∀ m : ℤ, |x - (m : ℚ) / 100| = |x * 100 - m| / 100 := by
    intro m
    rw [show x - (m : ℚ) / 100 = (x * 100 - m) / 100 by ring, abs_div]; norm_num
  constructor
  · intro m
    rw [key, key]
    have := rhe_nearest (x * 100) m
    linarith
  · intro m hne h
    rw [key, key] at h
    apply rhe_tie
    have h1 := rhe_abs (x * 100)
    apply le_antisymm h1
    by_contra hlt
    push Not at hlt
    have h2 : |x * 100 - (m : ℚ)| = |x * 100 - rhe (x * 100)| := by linarith
    exact hne (rhe_unique (x * 100) m (by linarith) (fun h => by linarith)).symm

section
variable [Arith]

/-- C55 (selection): for every float format, `round(x, 2)` is the float of the half-even nearest cent. -/
theorem C55_round_nearest (x : ℚ) (n : ℤ) (h : Spec.NearestCent x n) :
    rnd x = fl ((n : ℚ) / 100) := by
  rw [nearestCent_unique h (cent_nearestCent x)]; rfl

/-- C55 (existence): every value has a half-even nearest cent. -/
theorem C55_round_exists (x : ℚ) : ∃! n : ℤ, Spec.NearestCent x n :=
  ⟨_, cent_nearestCent x, fun _ h => nearestCent_unique h (cent_nearestCent x)⟩

/-- C55 (order): monotone for every float format. -/
theorem C55_round_mono (x y : ℚ) (h : x ≤ y) : rnd x ≤ rnd y := rnd_mono h

/-- C55 (symmetry): odd for every float format. -/
theorem C55_round_odd (x : ℚ) : rnd (-x) = - rnd x := rnd_neg x

/-- C55 (idempotence): rounding a rounded float changes nothing, for every float format. -/
theorem C55_round_idem (x : ℚ) (hx : fl x = x) : rnd (rnd x) = rnd x := rnd_rnd hx

/-- C55 without representation error: the result is a multiple of 0.01 at distance at most 0.005. -/
theorem C55_round_exact (hE : Exact) (x : ℚ) : (∃ n : ℤ, rnd x = n / 100) ∧ |x - rnd x| ≤ 1 / 200 := by
  rw [rnd_exact hE]; exact ⟨isCent_cent x, cent_abs x⟩

end

/-- Non-vacuity: a tie goes to the even cent (0.125 ↦ 0.12, 0.375 ↦ 0.38). -/
example : Spec.NearestCent (1 / 8) 12 := by
  have h := cent_nearestCent (1 / 8)
  rwa [show rhe (1 / 8 * 100 : ℚ) = 12 by decide +kernel] at h
example : Spec.NearestCent (3 / 8) 38 := by
  have h := cent_nearestCent (3 / 8)
  rwa [show rhe (3 / 8 * 100 : ℚ) = 38 by decide +kernel] at h
/-- Non-vacuity for binary64: its rounding is not the identity, and 0.5 is a float. -/
example : letI := Arith.binary64
    fl (1 / 2) = (1 / 2 : ℚ) ∧ fl (1 / 10) ≠ (1 / 10 : ℚ) := by
  letI := Arith.binary64
  decide +kernel

/-! ## C02 -/

section
variable [Arith]

theorem spread_nonneg {t : Tick} (h : t.bid ≤ t.ask) : 0 ≤ t.spread := rnd_nonneg (fsub_nonneg h)

/-- C02 (any float format): the value is the float of a whole number of cents and, for quotes that are
floats, not below `round(bid, 2)`. -/
theorem C02_value_cents (t : Tick) : ∃ n : ℤ, t.value = fl ((n : ℚ) / 100) :=
  ⟨_, rfl⟩

theorem C02_value_ge (t : Tick) (h : t.bid ≤ t.ask) (hb : fl t.bid = t.bid) : rnd t.bid ≤ t.value := by
  apply rnd_mono
  rw [← hb]
  conv_rhs => unfold fadd
  apply fl_mono
  rw [hb]
  have : 0 ≤ fdiv t.spread 2 := fl_nonneg (by have := spread_nonneg h; linarith)
  linarith

/-- C02, partial (exact arithmetic): the value lies between the rounded quotes. -/
theorem C02_value_between_partial (hE : Exact) (t : Tick) (h : t.bid ≤ t.ask) :
    rnd t.bid ≤ t.value ∧ t.value ≤ rnd t.ask := by
  refine ⟨C02_value_ge t h (hE _), ?_⟩
  rw [Tick.value, fadd_exact hE, fdiv_exact hE, Tick.spread, fsub_exact hE, rnd_exact hE, rnd_exact hE,
    rnd_exact hE]
  have h1 := cent_abs (t.ask - t.bid)
  rw [abs_le] at h1
  rcases lt_or_ge (t.ask - t.bid) (1 / 200) with hlt | hge
  · have : cent (t.ask - t.bid) = 0 := by
      unfold cent
      have : rhe ((t.ask - t.bid) * 100) = 0 := by
        have ha : |(t.ask - t.bid) * 100| < 1 / 2 := by
          rw [abs_of_nonneg (by linarith)]; linarith
        apply rhe_unique
        · simpa using ha.le
        · intro h; simp at h; norm_num at ha; linarith
      rw [this]; norm_num
    rw [this]
    apply cent_mono; linarith
  · apply cent_mono; linarith [h1.1, h1.2]

/-- C02, partial (exact arithmetic): the value is at most 0.0075 away from the true mid price. -/
theorem C02_value_near_mid_partial (hE : Exact) (t : Tick) : |t.value - (t.bid + t.ask) / 2| ≤ 3 / 400 := by
  rw [Tick.value, fadd_exact hE, fdiv_exact hE, Tick.spread, fsub_exact hE, rnd_exact hE, rnd_exact hE]
  have h1 := cent_abs (t.ask - t.bid)
  have h2 := cent_abs (t.bid + cent (t.ask - t.bid) / 2)
  rw [abs_le] at *
  constructor <;> linarith [h1.1, h1.2, h2.1, h2.2]

/-- C02, partial (exact arithmetic): for quotes with at most two decimals the value lies between bid and ask. -/
theorem C02_value_cent_quotes_partial (hE : Exact) (t : Tick) (h : t.bid ≤ t.ask)
    (hb : ∃ n : ℤ, t.bid = n / 100) (ha : ∃ n : ℤ, t.ask = n / 100) :
    t.bid ≤ t.value ∧ t.value ≤ t.ask := by
  have := C02_value_between_partial hE t h
  rwa [rnd_exact hE, rnd_exact hE, IsCent.cent hb, IsCent.cent ha] at this

end

/-- Non-vacuity, and sharpness: bid 0.0025, ask 0.0075 has mid 0.005 but value 0. -/
example : letI := Arith.exact
    (⟨⟨0, 0, 0⟩, 1 / 400, 3 / 400⟩ : Tick).value = 0 := by decide +kernel

/-- The bound by 0.0075 is false in binary64 for huge quotes. -/
theorem C02_not_in_binary64 : letI := Arith.binary64
    ∃ t : Tick, t.bid ≤ t.ask ∧ fl t.bid = t.bid ∧ fl t.ask = t.ask ∧
      3 / 400 < |t.value - (t.bid + t.ask) / 2| := by
  letI := Arith.binary64
  exact ⟨⟨⟨0, 0, 0⟩, 2 ^ 53, 2 ^ 53 + 2⟩, by norm_num, by decide +kernel, by decide +kernel,
    by decide +kernel⟩

/-- The value is not always between the quotes themselves (finding recorded in DESIGN.md). -/
theorem C02_value_outside_quotes : letI := Arith.exact
    ∃ t : Tick, t.bid ≤ t.ask ∧ t.value < t.bid := by
  letI := Arith.exact
  exact ⟨⟨⟨0, 0, 0⟩, 1 / 400, 3 / 400⟩, by norm_num, by decide +kernel⟩

end Estrade
