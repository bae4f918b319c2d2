import Verif.Props.Numbers
import Verif.Lemmas.Range

/-!
# C02 in binary64: the value of a tick between its quotes
-/

set_option linter.style.haveILetI false
set_option linter.unusedSectionVars false
set_option autoImplicit false

namespace Estrade

section
variable [Arith]

/-- C02, distance from the mid price, in range: below a cent for quotes of at most 2^37 (0.0075 without float error:
`C02_value_near_mid_partial`).  Missing: larger quotes, for which it is false (`C02_not_in_binary64`). -/
theorem C02_value_near_mid_in_range_partial (hA : Accurate) (t : Tick) (hb : |t.bid| ≤ 2 ^ 37)
    (ha : |t.ask| ≤ 2 ^ 37) : |t.value - (t.bid + t.ask) / 2| < 1 / 100 := by
  have hS : (1 : ℚ) ≤ 2 ^ 39 := by norm_num
  have hd : |t.ask - t.bid| ≤ 2 ^ 38 := by have := abs_sub t.ask t.bid; linarith
  have e1 := fl_err2 hA hS (x := t.ask - t.bid) (by linarith)
  set x := fl (t.ask - t.bid) with hx
  have e2 := cent_abs x
  norm_num at e1
  have hx2 : |x| ≤ 2 ^ 38 + 1 := by
    have := abs_add_le (x - (t.ask - t.bid)) (t.ask - t.bid)
    rw [sub_add_cancel] at this; linarith
  have hc2 : |cent x| ≤ 2 ^ 38 + 2 := by
    have := abs_add_le (cent x - x) x
    rw [sub_add_cancel, abs_sub_comm] at this; linarith
  have e3 := fl_err2 hA hS (x := cent x) (by linarith)
  set sp := fl (cent x) with hsp
  norm_num at e3
  have hs2 : |sp| ≤ 2 ^ 38 + 3 := by
    have := abs_add_le (sp - cent x) (cent x)
    rw [sub_add_cancel] at this; linarith
  have hs3 : |sp / 2| ≤ 2 ^ 37 + 3 := by
    rw [abs_div, abs_of_pos (by norm_num : (0 : ℚ) < 2)]; linarith
  have e4 := fl_err2 hA hS (x := sp / 2) (by linarith)
  set g := fl (sp / 2) with hg
  norm_num at e4
  have hg2 : |g| ≤ 2 ^ 37 + 4 := by
    have := abs_add_le (g - sp / 2) (sp / 2)
    rw [sub_add_cancel] at this; linarith
  have hy2 : |t.bid + g| ≤ 2 ^ 38 + 4 := by
    have := abs_add_le t.bid g; linarith
  have e5 := fl_err2 hA hS (x := t.bid + g) (by linarith)
  set y := fl (t.bid + g) with hy
  norm_num at e5
  have hyy : |y| ≤ 2 ^ 38 + 5 := by
    have := abs_add_le (y - (t.bid + g)) (t.bid + g)
    rw [sub_add_cancel] at this; linarith
  have e6 := cent_abs y
  have hcy : |cent y| ≤ 2 ^ 38 + 6 := by
    have := abs_add_le (cent y - y) y
    rw [sub_add_cancel, abs_sub_comm] at this; linarith
  have e7 := fl_err2 hA hS (x := cent y) (by linarith)
  norm_num at e7
  have hv : t.value = fl (cent y) := rfl
  rw [hv]
  rw [abs_le] at e1 e2 e3 e4 e5 e6 e7
  rw [abs_lt]
  constructor <;> linarith [e1.1, e1.2, e2.1, e2.2, e3.1, e3.2, e4.1, e4.2, e5.1, e5.2, e6.1, e6.2, e7.1, e7.2]

/-- C02 for quotes with at most two decimals, in range: the value is the float of an amount in cents between the
quotes, half a cent at most from the exact mid price. -/
theorem C02_value_cent_quotes_in_range_partial (hA : Accurate) (t : Tick) (B A : ℚ) (cB : IsCent B) (cA : IsCent A)
    (hB : t.bid = fl B) (hAsk : t.ask = fl A) (h : B ≤ A) (sB : |B| ≤ 2 ^ 36) (sA : |A| ≤ 2 ^ 36) :
    t.bid ≤ t.value ∧ t.value ≤ t.ask ∧
    ∃ V, IsCent V ∧ t.value = fl V ∧ B ≤ V ∧ V ≤ A ∧ |V - (B + A) / 2| ≤ 1 / 200 := by
  have hS : (1 : ℚ) ≤ 2 ^ 39 := by norm_num
  have aA := Apx.fl hA hS (s := A) (by linarith)
  have aB := Apx.fl hA hS (s := B) (by linarith)
  have sAB := abs_sub A B
  have hsp : t.spread = fl (A - B) := by
    unfold Tick.spread
    rw [hB, hAsk]
    exact (aA.sub hA hS aB (by linarith) (by norm_num)).rnd39 (cA.sub cB) (by norm_num)
  have e1 := (Apx.fl hA hS (s := A - B) (by linarith)).near
  have e0 := aB.near
  norm_num at e0 e1
  have hs2 : |fl (A - B) / 2| ≤ 2 ^ 37 := by
    rw [abs_div, abs_of_pos (by norm_num : (0 : ℚ) < 2)]
    have := abs_add_le (fl (A - B) - (A - B)) (A - B)
    rw [sub_add_cancel] at this; linarith
  have e2 := fl_err2 hA hS (x := fl (A - B) / 2) (by linarith)
  norm_num at e2
  set g := fl (fl (A - B) / 2) with hg
  have hg2 : |fl B + g| ≤ 2 ^ 39 := by
    have h1 := abs_add_le (fl B) g
    have h2 := abs_add_le (g - fl (A - B) / 2) (fl (A - B) / 2)
    rw [sub_add_cancel] at h2
    have h3 := abs_add_le (fl B - B) B
    rw [sub_add_cancel] at h3
    linarith
  have e3 := fl_err2 hA hS (x := fl B + g) (by linarith)
  norm_num at e3
  set y := fl (fl B + g) with hy
  have hv : t.value = fl (cent y) := by
    unfold Tick.value
    rw [hsp, hB]; rfl
  have hnear : |y - (B + A) / 2| < 1 / 400 := by
    rw [abs_le] at e0 e1 e2 e3
    rw [abs_lt]
    constructor <;> linarith [e0.1, e0.2, e1.1, e1.2, e2.1, e2.2, e3.1, e3.2]
  have hn := abs_lt.mp hnear
  have hBV : B ≤ cent y := cent_ge_of cB (by linarith [hn.1])
  have hVA : cent y ≤ A := cent_le_of cA (by linarith [hn.2])
  refine ⟨?_, ?_, cent y, isCent_cent y, hv, hBV, hVA, ?_⟩
  · rw [hB, hv]; exact fl_mono hBV
  · rw [hAsk, hv]; exact fl_mono hVA
  · obtain ⟨b, rfl⟩ := cB
    obtain ⟨a, rfl⟩ := cA
    obtain ⟨n, hn'⟩ := isCent_cent y
    have hc := cent_abs y
    rw [hn'] at hc ⊢
    rw [abs_le] at hc
    have h1 : |((2 * n - b - a : ℤ) : ℚ)| < 2 := by
      push_cast
      rw [abs_lt]; constructor <;> linarith [hn.1, hn.2, hc.1, hc.2]
    have h2 : |2 * n - b - a| < 2 := by exact_mod_cast h1
    have h3 : |2 * n - b - a| ≤ 1 := by omega
    have h4 : |((2 * n - b - a : ℤ) : ℚ)| ≤ 1 := by exact_mod_cast h3
    push_cast at h4
    rw [abs_le] at h4 ⊢
    constructor <;> linarith [h4.1, h4.2]

end

/-! ## Upper bound in binary64 -/

/-- A float of at least 1/256 is a multiple of 2^-60. -/
theorem fl64_multiple {z : ℚ} (h : fl64 z = z) (hz : 1 / 256 ≤ |z|) : ∃ k : ℤ, z = k / 2 ^ 60 := by
  have h1 := abs_lt_ulp z
  have he : -60 ≤ ulpExp z := by
    by_contra hc
    have h2 : (2 : ℚ) ^ ulpExp z ≤ 2 ^ (-61 : ℤ) := zpow_le_zpow_right₀ (by norm_num) (by omega)
    norm_num at h2
    linarith
  refine ⟨rhe (z / 2 ^ ulpExp z) * 2 ^ (ulpExp z + 60).toNat, ?_⟩
  conv_lhs => rw [← h]
  unfold fl64
  have h3 : (2 : ℚ) ^ ulpExp z = 2 ^ (ulpExp z + 60).toNat / 2 ^ 60 := by
    rw [← zpow_natCast, Int.toNat_of_nonneg (by omega), zpow_add₀ (by norm_num)]
    norm_num
  rw [h3]
  push_cast
  ring

/-- The float 0.005: an odd multiple of 2^-60. -/
def fiveMil : ℚ := 5764607523034235 / 2 ^ 60

theorem fl64_fiveMil : fl64 (1 / 200) = fiveMil := by decide +kernel
theorem fl64_fiveMil_self : fl64 fiveMil = fiveMil := by decide +kernel
theorem fl64_cent : fl64 (1 / 100) = 2 * fiveMil := by decide +kernel

/-- Everything that rounds to the float 0.005 from below is less than 2^-61 away. -/
theorem near_fiveMil {d : ℚ} (h : fl64 d = fiveMil) (hd : d < fiveMil) : fiveMil - d < 1 / 2 ^ 61 := by
  have hacc := accurate_binary64 d
  change |fl64 d - d| ≤ _ at hacc
  rw [h, abs_of_pos (by linarith)] at hacc
  have hc : fiveMil < 1 / 128 := by unfold fiveMil; norm_num
  have hc2 : 1 / 256 + 1 / 1024 < fiveMil := by unfold fiveMil; norm_num
  have hd0 : |d| ≤ 1 := by
    by_contra hcon
    push Not at hcon
    have hneg : d < 0 := by
      by_contra h0
      rw [abs_of_nonneg (by linarith)] at hcon; linarith
    rw [abs_of_neg hneg] at hacc hcon
    have h1 : -d / 2 ^ 53 ≤ -d / 4 := by gcongr; linarith
    have h2 : (1 : ℚ) / 2 ^ 200 ≤ 1 / 4 := by norm_num
    linarith
  have h1 : |d| / 2 ^ 53 ≤ 1 / 2 ^ 53 := by gcongr
  have h2 : (1 : ℚ) / 2 ^ 53 + 1 / 2 ^ 200 ≤ 1 / 1024 := by norm_num
  have hlow : 1 / 256 < d := by linarith
  have hV1 : (2 : ℚ) ^ (52 + 0) ≤ d * 2 ^ 60 := by norm_num; linarith
  have hV2 : d * 2 ^ 60 < (2 : ℚ) ^ (53 + 0) := by norm_num; linarith
  have hr := fl64_of_range (e := -60) (j := 0) (by norm_num) hV1 hV2
  have hdd : d * 2 ^ 60 * (2 : ℚ) ^ (-60 : ℤ) = d := by norm_num; ring
  rw [hdd, h] at hr
  have hN : rhe (d * 2 ^ 60) = 5764607523034235 := by
    unfold fiveMil at hr
    norm_num at hr
    have : ((rhe (d * 1152921504606846976) : ℤ) : ℚ) = 5764607523034235 := by linarith
    norm_num
    exact_mod_cast this
  have ha := rhe_abs (d * 2 ^ 60)
  have ht : |d * 2 ^ 60 - rhe (d * 2 ^ 60)| ≠ 1 / 2 := by
    intro he
    have := rhe_tie (d * 2 ^ 60) he
    rw [hN] at this
    norm_num at this
  have hlt := lt_of_le_of_ne ha ht
  rw [hN, abs_lt] at hlt
  unfold fiveMil
  have := hlt.1
  push_cast at this
  rw [sub_lt_iff_lt_add]
  norm_num at this ⊢
  linarith

/-- C02, upper bound in binary64: for all quotes that are floats the value is not above `round(ask, 2)`. -/
theorem C02_value_le_binary64 : letI := Arith.binary64
    ∀ t : Tick, t.bid ≤ t.ask → fl t.bid = t.bid → fl t.ask = t.ask → t.value ≤ rnd t.ask := by
  letI := Arith.binary64
  intro t h hb ha
  have hA := accurate_binary64
  -- it suffices to bound the unrounded value by the ask
  have enough : fadd t.bid (fdiv t.spread 2) ≤ t.ask → t.value ≤ rnd t.ask := fun h => rnd_mono h
  have enough' : t.bid + fdiv t.spread 2 ≤ t.ask → t.value ≤ rnd t.ask := by
    intro h
    apply enough
    rw [← ha]
    exact fl_mono (h.trans_eq ha.symm) |>.trans_eq (by rw [fl_idem])
  have hd0 : 0 ≤ t.ask - t.bid := by linarith
  set x := fsub t.ask t.bid with hx
  have hx0 : 0 ≤ x := fsub_nonneg h
  have hsp : t.spread = fl (cent x) := rfl
  by_cases hz : cent x = 0
  · apply enough'
    rw [hsp, hz, fl_zero]
    unfold fdiv
    rw [zero_div, fl_zero]; linarith
  have ex := hA (t.ask - t.bid)
  change |x - (t.ask - t.bid)| ≤ _ at ex
  rw [abs_of_nonneg hd0] at ex
  set d := t.ask - t.bid with hd
  have ed : d / 2 ^ 53 ≤ d / 1000 := by gcongr; norm_num
  have et : (1 : ℚ) / 2 ^ 200 ≤ 1 / 10000000 := by norm_num
  rw [abs_le] at ex
  have ec := abs_le.mp (cent_abs x)
  have hcn : 0 ≤ cent x := cent_nonneg hx0
  rcases le_or_gt (3 / 400) x with hbig | hsmall
  · apply enough'
    have es := hA (cent x)
    change |t.spread - cent x| ≤ _ at es
    rw [abs_of_nonneg hcn] at es
    have ed1 : cent x / 2 ^ 53 ≤ cent x / 1000 := by gcongr; norm_num
    have hsn : 0 ≤ t.spread := spread_nonneg h
    have eg := hA (t.spread / 2)
    change |fdiv t.spread 2 - t.spread / 2| ≤ |t.spread / 2| / 2 ^ 53 + 1 / 2 ^ 200 at eg
    rw [abs_of_nonneg (show 0 ≤ t.spread / 2 by linarith)] at eg
    have ed2 : t.spread / 2 / 2 ^ 53 ≤ t.spread / 2 / 1000 := by gcongr; norm_num
    rw [abs_le] at es eg
    linarith [ex.1, ex.2, ec.1, ec.2, es.1, es.2, eg.1, eg.2]
  · -- the spread is 0.01
    have hx1 : 1 / 200 < x := by
      by_contra hc
      push Not at hc
      apply hz
      have : rhe (x * 100) = 0 := by
        apply rhe_unique
        · rw [Int.cast_zero, sub_zero, abs_of_nonneg (by linarith)]; linarith
        · intro _; rfl
      unfold cent; rw [this]; norm_num
    have hc1 : cent x = 1 / 100 := by
      have : rhe (x * 100) = 1 := by
        apply rhe_unique
        · rw [abs_le]; constructor <;> push_cast <;> linarith
        · intro he
          exfalso
          have : |x * 100 - ((1 : ℤ) : ℚ)| < 1 / 2 := by rw [abs_lt]; constructor <;> push_cast <;> linarith
          rw [he] at this; exact lt_irrefl _ this
      unfold cent; rw [this]; norm_num
    have hg : fdiv t.spread 2 = fiveMil := by
      rw [hsp, hc1]
      change fl64 (fl64 (1 / 100) / 2) = _
      rw [fl64_cent, mul_div_cancel_left₀ _ (by norm_num)]
      exact fl64_fiveMil_self
    have hxc : fiveMil ≤ x := by
      have h1 : fl (1 / 200) ≤ fl x := fl_mono hx1.le
      rw [show fl x = x from fl_idem _] at h1
      exact (fl64_fiveMil.symm.le).trans h1
    rcases le_or_gt fiveMil d with hcd | hcd
    · apply enough'
      rw [hg]; linarith
    have hfd : fl64 d = fiveMil := by
      apply le_antisymm _ hxc
      have : fl d ≤ fl fiveMil := fl_mono hcd.le
      exact this.trans_eq fl64_fiveMil_self
    have hnear := near_fiveMil hfd hcd
    have hya : t.ask < t.bid + fiveMil := by linarith
    have hyb : t.bid + fiveMil < t.ask + 1 / 2 ^ 61 := by linarith
    rcases le_or_gt |t.ask| (1 / 256) with hs | hl
    · -- both round to 0 or below
      have hs' := abs_le.mp hs
      have h1 : cent t.ask = 0 := by
        have : rhe (t.ask * 100) = 0 := by
          apply rhe_unique
          · rw [abs_le]; constructor <;> push_cast <;> linarith [hs'.1, hs'.2]
          · intro _; rfl
        unfold cent; rw [this]; norm_num
      have h2 : fadd t.bid (fdiv t.spread 2) ≤ 1 / 250 * (1 + 1 / 1000) := by
        rw [hg]
        have h3 : fl (t.bid + fiveMil) ≤ fl (1 / 250) := fl_mono (by norm_num at hyb; linarith [hs'.2])
        have h4 : fl (1 / 250) ≤ (1 / 250 * (1 + 1 / 1000) : ℚ) := by decide +kernel
        exact h3.trans h4
      have h3 : cent (fadd t.bid (fdiv t.spread 2)) ≤ 0 :=
        cent_le_of isCent_zero (by norm_num at h2 ⊢; linarith)
      calc t.value = fl (cent (fadd t.bid (fdiv t.spread 2))) := rfl
        _ ≤ fl 0 := fl_mono h3
        _ = rnd t.ask := by unfold rnd; rw [h1]
    · apply enough
      rw [hg]
      by_contra hc
      push Not at hc
      set f := fadd t.bid fiveMil with hf
      have hff : fl64 f = f := fl_idem (t.bid + fiveMil)
      have hn : |f - (t.bid + fiveMil)| ≤ |t.ask - (t.bid + fiveMil)| := by
        have := fl64_nearest (t.bid + fiveMil) t.ask
        rw [show fl64 t.ask = t.ask from ha] at this
        exact this
      rw [abs_of_neg (by linarith : t.ask - (t.bid + fiveMil) < 0), abs_le] at hn
      have hfa : f - t.ask < 1 / 2 ^ 60 := by
        have : (1 : ℚ) / 2 ^ 61 + 1 / 2 ^ 61 = 1 / 2 ^ 60 := by norm_num
        linarith [hn.2]
      obtain ⟨k, hk⟩ := fl64_multiple (z := t.ask) ha hl.le
      rcases le_or_gt (1 / 256) |f| with hfb | hfs
      · obtain ⟨k', hk'⟩ := fl64_multiple hff hfb
        rw [hk, hk', div_lt_div_iff_of_pos_right (by norm_num)] at hc
        have : k + 1 ≤ k' := by exact_mod_cast hc
        have : (k : ℚ) + 1 ≤ k' := by exact_mod_cast this
        rw [hk, hk', ← sub_div, div_lt_div_iff_of_pos_right (by norm_num)] at hfa
        linarith
      · have hfs' := abs_lt.mp hfs
        have hneg : t.ask < -(1 / 256) := by
          rcases lt_abs.mp hl with h1 | h1
          · linarith
          · linarith
        have hk2 : (k : ℚ) < -(2 ^ 52 : ℤ) := by
          rw [hk] at hneg
          push_cast
          rw [div_lt_iff₀ (by norm_num)] at hneg
          norm_num at hneg ⊢
          linarith
        have hk3 : k < -(2 ^ 52 : ℤ) := by exact_mod_cast hk2
        have hk4 : k ≤ -(2 ^ 52 : ℤ) - 1 := by omega
        have hk5 : (k : ℚ) ≤ -(2 ^ 52 : ℤ) - 1 := by exact_mod_cast hk4
        rw [hk] at hfa
        push_cast at hk5
        have h6 : f < k / 2 ^ 60 + 1 / 2 ^ 60 := by linarith
        have h7 : (k : ℚ) / 2 ^ 60 ≤ (-2 ^ 52 - 1) / 2 ^ 60 := by
          rw [div_le_div_iff_of_pos_right (by norm_num)]; linarith
        norm_num at h6 h7
        linarith [hfs'.1]

/-- C02 in binary64: the value lies between the rounded quotes, for all quotes that are floats. -/
theorem C02_value_between_binary64 : letI := Arith.binary64
    ∀ t : Tick, t.bid ≤ t.ask → fl t.bid = t.bid → fl t.ask = t.ask → rnd t.bid ≤ t.value ∧ t.value ≤ rnd t.ask := by
  letI := Arith.binary64
  exact fun t h hb ha => ⟨C02_value_ge t h hb, C02_value_le_binary64 t h hb ha⟩

/-- Quotes of the delicate case: the difference of the quotes is below the float 0.005 and rounds to it, so that half
the spread is more than the difference. -/
example : letI := Arith.binary64
    let t : Tick := ⟨⟨0, 0, 0⟩, 1 / 2 ^ 62, fiveMil⟩
    fl t.bid = t.bid ∧ fl t.ask = t.ask ∧ t.ask - t.bid < t.spread / 2 ∧ fl (t.ask - t.bid) = fiveMil ∧
      t.ask < t.bid + t.spread / 2 ∧ t.value ≤ rnd t.ask := by
  letI := Arith.binary64
  decide +kernel

/-- 1.1 / 1.3: floats of two decimals, value 1.2. -/
example : letI := Arith.binary64
    let t : Tick := ⟨⟨0, 0, 0⟩, fl (11 / 10), fl (13 / 10)⟩
    fl t.bid = t.bid ∧ fl t.ask = t.ask ∧ t.bid < t.value ∧ t.value < t.ask ∧ t.value = fl (12 / 10) ∧
      t.bid ≠ 11 / 10 ∧ |t.value - (t.bid + t.ask) / 2| < 1 / 100 := by
  letI := Arith.binary64
  decide +kernel

/-- The hypotheses of `C02_value_cent_quotes_in_range_partial` in binary64 for these quotes. -/
example : letI := Arith.binary64
    let t : Tick := ⟨⟨0, 0, 0⟩, fl (11 / 10), fl (13 / 10)⟩
    t.bid ≤ t.value ∧ t.value ≤ t.ask := by
  letI := Arith.binary64
  have := C02_value_cent_quotes_in_range_partial accurate_binary64 ⟨⟨0, 0, 0⟩, fl (11 / 10), fl (13 / 10)⟩
    (11 / 10) (13 / 10) ⟨110, by norm_num⟩ ⟨130, by norm_num⟩ rfl rfl (by norm_num) (by norm_num [abs_le])
    (by norm_num [abs_le])
  exact ⟨this.1, this.2.1⟩

end Estrade
