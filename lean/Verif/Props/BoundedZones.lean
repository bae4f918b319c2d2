import Verif.Props.Bounded
import Verif.Lemmas.EpicLog
import Verif.Lemmas.Dicts

/-!
# C104: the calendar ends, in timezones with clock changes (estrade/mixins/timeframe.py, estrade/graph/frame_set.py, estrade/epic.py)
-/

set_option linter.style.haveILetI false
set_option linter.unusedSectionVars false
set_option autoImplicit false

namespace Estrade

/-- Spec: a timezone less than 24 hours from UTC that moves a wall clock that does not exist forward, by less than 24 hours. -/
structure Spec.NearUTC (z : Zone) (inst : ℤ → ℤ) : Prop where
  forward : ∀ x, x ≤ z.resolve x
  close : ∀ x, z.resolve x < x + 24 * (60 * (60 * 1000000))
  instant : ∀ x, |inst x - x| < 24 * (60 * (60 * 1000000))

/-- Spec: the years in which nothing meets the ends of the calendar. -/
def Spec.Inner (u : Unit') (q w : ℤ) : Prop :=
  2 ≤ yearOf w ∧ yearOf w ≤ 9997 ∧ (u = .year → q ≤ yearOf w ∧ yearOf w + q ≤ 9998)

theorem yearOf_mono {a b : ℤ} (h : a ≤ b) : yearOf a ≤ yearOf b := by
  have := (le_yearOf_iff (yearOf a) a).mp le_rfl
  exact (le_yearOf_iff (yearOf a) b).mpr (this.trans h)

theorem shiftMonths_year (w n : ℤ) : shiftMonths w n < mfirst (midx (ordOf w) + n + 1) * dayUs := by
  obtain ⟨d, -, h2, h3⟩ := shiftMonths_eq w n
  rw [h3, mfirst_succ]
  have ht : timeOf w < dayUs := by
    unfold timeOf
    exact Int.emod_lt_of_pos _ (by decide)
  have hd : (0 : ℤ) < dayUs := by decide
  nlinarith

/-- The end of a frame that begins before the year 9998. -/
theorem shiftUnit_inner {u : Unit'} {q : ℤ} (hT : Tiles u q) {x W : ℤ} (hx : x ≤ W) (hW : Spec.Inner u q W) :
    shiftUnit u q x < 3651695 * dayUs + 7 * dayUs := by
  obtain ⟨-, w2, w3⟩ := hW
  have hy := yearOf_mono hx
  have e2 : mfirst (12 * 9999) = 3651695 := by decide +kernel
  have hlt : x < mfirst (12 * 9998) * dayUs := by
    by_contra h
    have := (le_yearOf_iff 9998 x).mpr (by omega)
    omega
  have hm : ∀ n, yearOf x * 12 + 11 + n < 12 * 9999 → shiftMonths x n < 3651695 * dayUs := by
    intro n hn
    have h1 := shiftMonths_year x n
    have h2 : mfirst (midx (ordOf x) + n + 1) ≤ mfirst (12 * 9999) := mfirst_strictMono.monotone (by
      have := yearOf_midx x
      omega)
    have := mul_le_mul_of_nonneg_right h2 (show (0 : ℤ) ≤ dayUs by decide)
    rw [e2] at this
    omega
  have hdu : (0 : ℤ) < dayUs := by decide
  have e1 : mfirst (12 * 9998) = 3651330 := by decide +kernel
  rw [e1] at hlt
  have hq := hT.1
  have hd := hT.2
  cases u with
  | tick => exact hd.elim
  | second =>
    have : q ≤ 60 := Int.le_of_dvd (by decide) hd
    simp only [shiftUnit, dayUs, hourUs, minUs, secUs] at *
    omega
  | minute =>
    have : q ≤ 60 := Int.le_of_dvd (by decide) hd
    simp only [shiftUnit, dayUs, hourUs, minUs, secUs] at *
    omega
  | hour =>
    have : q ≤ 12 := Int.le_of_dvd (by decide) hd
    simp only [shiftUnit, dayUs, hourUs, minUs, secUs] at *
    omega
  | day =>
    have : q ≤ 7 := Int.le_of_dvd (by decide) hd
    simp only [shiftUnit, dayUs, hourUs, minUs, secUs] at *
    omega
  | week =>
    have : q ≤ 1 := Int.le_of_dvd (by decide) hd
    simp only [shiftUnit, dayUs, hourUs, minUs, secUs] at *
    omega
  | month =>
    have : q ≤ 12 := Int.le_of_dvd (by decide) hd
    have := hm q (by omega)
    simp only [shiftUnit]
    omega
  | year =>
    obtain ⟨y1, y2⟩ := w3 rfl
    have := hm (q * 12) (by omega)
    simp only [shiftUnit]
    omega

theorem calEnd_inner {z : Zone} {inst : ℤ → ℤ} (hz : Spec.NearUTC z inst) {u : Unit'} {q : ℤ} (hT : Tiles u q) {x W : ℤ} (hx : x ≤ W)
    (hW : Spec.Inner u q W) (h0 : 3 * dayUs ≤ x) : calEnd z inst u q x = .ok (frameEnd z u q x) := by
  have h1 := shiftUnit_inner hT hx hW
  have h2 := shiftUnit_gt hT.ne_tick hT.1 x
  have h3 := hz.forward (shiftUnit u q x)
  have h4 := hz.close (shiftUnit u q x)
  have h5 := abs_lt.mp (hz.instant (shiftUnit u q x))
  have hd : dayUs = 24 * (60 * (60 * 1000000)) := by decide
  have hc : ∀ y, shiftUnit u q x - 24 * (60 * (60 * 1000000)) ≤ y → y ≤ shiftUnit u q x + 24 * (60 * (60 * 1000000)) → inCal y = true := by
    intro y y1 y2
    rw [inCal_bounds]
    omega
  unfold calEnd frameEnd
  dsimp only
  rw [if_neg hT.ne_tick, hc _ (by omega) (by omega), hc (inst _) (by omega) (by omega), hc (_ - dayUs) (by omega) (by omega),
    hc (_ + dayUs) (by omega) (by omega), hc (z.resolve _) (by omega) (by omega)]
  simp only [Bool.not_true, Bool.false_eq_true, if_false, Bool.and_self, if_true]
  split_ifs with h
  · rw [h]
  · rfl

/-- The start of the frame of a tick of the years from 2 on. -/
theorem start_inner {u : Unit'} {q : ℤ} (hT : Tiles u q) {W : ℤ} (hW : Spec.Inner u q W) : 3 * dayUs ≤ grid u q (gidx u q W) := by
  obtain ⟨w1, -, w3⟩ := hW
  have h1 := (le_yearOf_iff 2 W).mp w1
  have e1 : mfirst (12 * 2) = 366 := by decide +kernel
  rw [e1] at h1
  have hmono := grid_strictMono hT
  obtain ⟨-, g2⟩ := gidx_spec hT W
  have hq := hT.1
  have hd := hT.2
  have hdu : (0 : ℤ) < dayUs := by decide
  cases u with
  | tick => exact hd.elim
  | second =>
    have : q ≤ 60 := Int.le_of_dvd (by decide) hd
    simp only [grid] at g2 ⊢
    rw [add_mul] at g2
    simp only [dayUs, hourUs, minUs, secUs] at *
    omega
  | minute =>
    have : q ≤ 60 := Int.le_of_dvd (by decide) hd
    simp only [grid] at g2 ⊢
    rw [add_mul] at g2
    simp only [dayUs, hourUs, minUs, secUs] at *
    omega
  | hour =>
    have : q ≤ 12 := Int.le_of_dvd (by decide) hd
    simp only [grid] at g2 ⊢
    rw [add_mul] at g2
    simp only [dayUs, hourUs, minUs, secUs] at *
    omega
  | day =>
    have : q ≤ 7 := Int.le_of_dvd (by decide) hd
    simp only [grid] at g2 ⊢
    rw [mul_add] at g2
    simp only [dayUs, hourUs, minUs, secUs] at *
    omega
  | week =>
    simp only [grid] at g2 ⊢
    simp only [dayUs, hourUs, minUs, secUs] at *
    omega
  | month =>
    obtain ⟨d, hd⟩ := hd
    have hk : grid .month q (d * 2) = 366 * dayUs := by
      rw [← e1]
      simp only [grid]
      congr 2
      rw [hd]; ring
    have hle : d * 2 ≤ gidx .month q W := by
      by_contra hn
      have := hmono.monotone (show gidx .month q W + 1 ≤ d * 2 by omega)
      omega
    have := hmono.monotone hle
    omega
  | year =>
    obtain ⟨y1, -⟩ := w3 rfl
    have e3 : grid .year q (gidx .year q W) = mfirst (12 * (q * (yearOf W / q))) * dayUs := by
      simp only [grid, gidx]; rw [yearOf_midx]
    have d2 : 2 ≤ q * (yearOf W / q) := by
      have d1 : 1 ≤ yearOf W / q := by rw [Int.le_ediv_iff_mul_le hq]; omega
      rcases (show q = 1 ∨ 2 ≤ q by omega) with rfl | hq2
      · simpa using w1
      · nlinarith
    have d3 : mfirst (12 * 2) ≤ mfirst (12 * (q * (yearOf W / q))) := mfirst_strictMono.monotone (by omega)
    rw [e1] at d3
    rw [e3]
    nlinarith

section
variable [Arith]

/-- The current frame does not end in the first days of the calendar. -/
structure LateEnd (u : Unit') (q : ℤ) (fs : FrameSet) : Prop where
  unit : fs.unit = u
  qty : fs.qty = q
  cur : fs.current = none ∨ ∃ a pe, Cur fs (a, some pe) ∧ 3 * dayUs ≤ pe

theorem LateEnd.create {u : Unit'} {q : ℤ} {fs : FrameSet} (h : LateEnd u q fs) (c : Ctx) (t : Tick) (ps : ℤ) {pe : ℤ} (hp : 3 * dayUs ≤ pe) :
    LateEnd u q (fs.feedCreate c t ps (some pe)).1 := by
  rcases feedCreate_cur fs c t ps (some pe) with ⟨h1, -⟩ | ⟨h1, h2, h3, -⟩
  · rw [h1]; exact h
  · exact ⟨h2.trans h.unit, h3.trans h.qty, .inr ⟨ps, pe, h1, hp⟩⟩

theorem calFill_inner {c : Ctx} {inst : ℤ → ℤ} (hz : Spec.NearUTC c.zone inst) {u : Unit'} {q : ℤ} (hT : Tiles u q) {ps W : ℤ} (hps : ps ≤ W)
    (hW : Spec.Inner u q W) (n : ℕ) : ∀ (m : ℕ) (fs : FrameSet), LateEnd u q fs →
    (∀ a pe, Cur fs (a, some pe) → ps - pe ≤ n ∧ ps - pe ≤ m) →
    calFill inst c ps n fs = feedFill c ps m fs ∧ LateEnd u q (feedFill c ps m fs).1 := by
  induction n with
  | zero =>
    intro m fs h hk
    unfold calFill feedFill
    rcases h.cur with hc | ⟨a, pe, ⟨i, f, hc, hb⟩, -⟩
    · rw [hc]; exact ⟨rfl, h⟩
    · have hp : f.periodEnd = some pe := congrArg Prod.snd hb
      have := (hk a pe ⟨i, f, hc, hb⟩).1
      have hle : ¬ pe < ps := by push_cast at this; omega
      rw [hc]
      dsimp only
      rw [hp]
      dsimp only
      rw [if_neg hle, if_neg hle]
      exact ⟨rfl, h⟩
  | succ n ih =>
    intro m fs h hk
    unfold calFill feedFill
    rcases h.cur with hc | ⟨a, pe, ⟨i, f, hc, hb⟩, k2⟩
    · rw [hc]; exact ⟨rfl, h⟩
    · have hp : f.periodEnd = some pe := congrArg Prod.snd hb
      have hk' := hk a pe ⟨i, f, hc, hb⟩
      rw [hc]
      dsimp only
      rw [hp]
      dsimp only
      split_ifs with hlt
      · rcases m with _ | m
        · exfalso; have := hk'.2; push_cast at this; omega
        · dsimp only
          rw [h.unit, h.qty, calEnd_inner hz hT (hlt.le.trans hps) hW k2]
          dsimp only
          have hgt := frameEnd_gt hz.forward hT.ne_tick hT.1 pe
          have hcr := h.create c f.last pe (pe := frameEnd c.zone u q pe) (by omega)
          have hcur := feedCreate_cur fs c f.last pe (some (frameEnd c.zone u q pe))
          rcases hr : fs.feedCreate c f.last pe (some (frameEnd c.zone u q pe)) with ⟨fs', _ | e⟩ <;> rw [hr] at hcr hcur
          · dsimp only
            refine ih m fs' hcr ?_
            intro a' pe' hk2
            rcases hcur with ⟨-, x, hx⟩ | ⟨⟨i2, f2, hc2, hb2⟩, -, -, -⟩
            · cases hx
            · obtain ⟨i3, f3, hc3, hb3⟩ := hk2
              dsimp only at hc2
              rw [hc3] at hc2
              cases hc2
              rw [hb3] at hb2
              have := Option.some.inj (congrArg Prod.snd hb2)
              push_cast at hk'
              omega
          · exact ⟨rfl, hcr⟩
      · exact ⟨rfl, h⟩

theorem LateEnd.feed {c : Ctx} {inst : ℤ → ℤ} (hz : Spec.NearUTC c.zone inst) {u : Unit'} {q : ℤ} (hT : Tiles u q) {fs : FrameSet}
    (h : LateEnd u q fs) (t : Tick) (hW : Spec.Inner u q t.dt.wall) :
    fs.calFeed inst c t = fs.feed c t ∧ LateEnd u q (fs.feed c t).1 := by
  have hw : inCal t.dt.wall = true := (inCal_iff _).mpr ⟨by have := hW.1; omega, by have := hW.2.1; omega⟩
  have hs := start_inner hT hW
  have hle := (gidx_spec hT t.dt.wall).1
  have hin : inCal (grid u q (gidx u q t.dt.wall)) = true := by
    rw [inCal_bounds] at hw ⊢
    have hd : (0 : ℤ) < dayUs := by decide
    omega
  obtain ⟨s1, s2⟩ := (calStart_tiles hT hw).1 hin
  have ht : fs.calTimed inst c t = fs.feedTimed c t ∧ LateEnd u q (fs.feedTimed c t).1 := by
    unfold FrameSet.calTimed FrameSet.feedTimed
    rw [h.unit, h.qty, s1, s2]
    dsimp only
    rw [calEnd_inner hz hT hle hW hs]
    dsimp only
    obtain ⟨f1, f2⟩ := calFill_inner hz hT hle hW calFuel (fillFuel fs (grid u q (gidx u q t.dt.wall))) fs h (by
      rintro a pe ⟨i, f, hc, hb⟩
      have hp : f.periodEnd = some pe := congrArg Prod.snd hb
      constructor
      · have hpe : 3 * dayUs ≤ pe := by
          rcases h.cur with hn | ⟨a', pe', ⟨i', f', hc', hb'⟩, k⟩
          · rw [hc] at hn; cases hn
          · rw [hc] at hc'
            cases hc'
            rw [hb] at hb'
            cases hb'
            exact k
        have hb := inCal_bounds.mp hin
        have hd : (0 : ℤ) < dayUs := by decide
        unfold calFuel
        omega
      · unfold fillFuel
        rw [hc]
        dsimp only
        rw [hp]
        exact Int.self_le_toNat _)
    rw [f1]
    rcases hr : feedFill c (grid u q (gidx u q t.dt.wall)) (fillFuel fs (grid u q (gidx u q t.dt.wall))) fs with ⟨s, _ | e⟩ <;> rw [hr] at f2
    · refine ⟨rfl, f2.create c t _ ?_⟩
      have := frameEnd_gt hz.forward hT.ne_tick hT.1 (grid u q (gidx u q t.dt.wall))
      omega
    · exact ⟨rfl, f2⟩
  have hla : LateEnd u q (fs.feedLast c t).1 := by
    obtain ⟨-, -, b3, b4⟩ := feedLast_bounds fs c t
    refine ⟨b3.trans h.unit, b4.trans h.qty, ?_⟩
    rcases h.cur with h2 | ⟨a, pe, hc, k⟩
    · left
      have : fs.feedLast c t = (fs, none) := by unfold FrameSet.feedLast; rw [h2]
      rw [this]
      exact h2
    · exact .inr ⟨a, pe, feedLast_cur hc c t, k⟩
  unfold FrameSet.calFeed FrameSet.feed
  rw [if_neg (by rw [h.unit]; exact hT.ne_tick), if_neg (by rw [h.unit]; exact hT.ne_tick)]
  rcases fs.overTimed t with e | b
  · exact ⟨rfl, h⟩
  · dsimp only
    split_ifs
    · exact ht
    · exact ⟨rfl, hla⟩

/-- C104: in any timezone, clock changes included, as long as all ticks are of the years 2 to 9997 (and leave room for frames of several years),
in any order: nothing meets the ends of the calendar, the run is the one in a calendar without end. -/
theorem C104_any_zone (z : Zone) (inst : ℤ → ℤ) (hz : Spec.NearUTC z inst) (u : Unit') (q : ℤ) (ha : Spec.Accepted u q) (fs : FrameSet)
    (hfs : Spec.NewFrames u q fs) (l : List CalCmd) (hl : ∀ e t, CalCmd.tick e t ∈ l → Spec.Inner u q t.dt.wall) :
    fs.calRun z inst l = Spec.endlessRun z fs l := by
  have hT := accepted_tiles ha
  have h0 : LateEnd u q fs := ⟨hfs.unit, hfs.qty, .inl (by unfold FrameSet.current; rw [hfs.frames]; rfl)⟩
  clear hfs
  induction l generalizing fs with
  | nil => rfl
  | cons x l ih =>
    have hx : fs.calExec z inst x = Spec.endlessExec z fs x ∧ LateEnd u q (Spec.endlessExec z fs x).1 := by
      rcases x with ⟨e, t⟩ | ind
      · exact h0.feed (c := ⟨z, e⟩) hz hT t (hl e t (List.mem_cons_self ..))
      · refine ⟨rfl, ?_⟩
        obtain ⟨-, -, h3, h4⟩ := addIndicator_kept fs ind
        have hc := addIndicator_current fs ind
        refine ⟨h3.trans h0.unit, h4.trans h0.qty, ?_⟩
        rcases h0.cur with hn | ⟨a, pe, ⟨i, f, k1, k2⟩, k3⟩
        · exact .inl (hc.trans hn)
        · exact .inr ⟨a, pe, ⟨i, f, hc.trans k1, k2⟩, k3⟩
    have := ih (fs.calExec z inst x).1 (fun e t hm => hl e t (List.mem_cons_of_mem _ hm)) (by rw [hx.1]; exact hx.2)
    unfold FrameSet.calRun Spec.endlessRun at this ⊢
    rw [List.foldl_cons, List.foldl_cons, this, hx.1]

/-- Paris is near UTC; a day of 2019 is inner for all units, and for frames of up to 2019 years. -/
example : Spec.NearUTC Zone.paris2019 Demo.parisInst ∧ Spec.Inner .hour 1 (midnight 2019 3 31 + 13 * hourUs) ∧
    Spec.Inner .year 2019 (midnight 2019 3 31) := by
  refine ⟨⟨?_, ?_, ?_⟩, ?_, ?_⟩
  · intro x
    unfold Zone.paris2019
    dsimp only
    have : (0 : ℤ) < hourUs := by decide
    split_ifs <;> omega
  · intro x
    unfold Zone.paris2019
    dsimp only
    have : hourUs = 3600000000 := by decide
    split_ifs <;> omega
  · intro x
    unfold Demo.parisInst
    have : hourUs = 3600000000 := by decide
    rw [abs_lt]
    split_ifs <;> omega
  · refine ⟨by decide +kernel, by decide +kernel, fun h => by cases h⟩
  · refine ⟨by decide +kernel, by decide +kernel, fun _ => by decide +kernel⟩

/-! ## The epic -/

/-- A frame set of an epic. -/
def LateSet (fs : FrameSet) : Prop := fs.unit = .tick ∨ (Tiles fs.unit fs.qty ∧ LateEnd fs.unit fs.qty fs)

theorem LateSet.feed {c : Ctx} {inst : ℤ → ℤ} (hz : Spec.NearUTC c.zone inst) {fs : FrameSet} (h : LateSet fs) (t : Tick)
    (hf : fs.unit = .tick ∨ Spec.Inner fs.unit fs.qty t.dt.wall) :
    fs.calFeed inst c t = fs.feed c t ∧ LateSet (fs.feed c t).1 ∧ (fs.feed c t).1.unit = fs.unit ∧ (fs.feed c t).1.qty = fs.qty := by
  have he : fs.calFeed inst c t = fs.feed c t := by
    rcases h with h | ⟨hT, h⟩
    · unfold FrameSet.calFeed
      rw [if_pos h]
    · rcases hf with hf | hf
      · exact absurd hf hT.ne_tick
      · exact (h.feed hz hT t hf).1
  obtain ⟨f1, f2⟩ := calFeed_fields inst fs c t
  rw [he] at f1 f2
  refine ⟨he, ?_, f1, f2⟩
  rcases h with h | ⟨hT, h⟩
  · exact .inl (f1.trans h)
  · rcases hf with hf | hf
    · exact absurd hf hT.ne_tick
    · right
      rw [f1, f2]
      exact ⟨hT, (h.feed hz hT t hf).2⟩

theorem calSets_late {c : Ctx} {inst : ℤ → ℤ} (hz : Spec.NearUTC c.zone inst) (t : Tick) (S : Unit' → ℤ → Prop)
    (hS : ∀ u q, S u q → u = .tick ∨ Spec.Inner u q t.dt.wall) (d : Dict FrameSet) (hd : ∀ p ∈ d, LateSet p.2 ∧ S p.2.unit p.2.qty) :
    calSets inst c t d = updateFrameSets c t d ∧ ∀ p ∈ (calSets inst c t d).1, LateSet p.2 ∧ S p.2.unit p.2.qty := by
  induction d with
  | nil => exact ⟨rfl, hd⟩
  | cons p d ih =>
    obtain ⟨k, fs⟩ := p
    obtain ⟨o1, o2⟩ := hd (k, fs) (List.mem_cons_self ..)
    obtain ⟨e1, e2, e3, e4⟩ := o1.feed hz t (hS _ _ o2)
    obtain ⟨i1, i2⟩ := ih (fun p hp => hd p (List.mem_cons_of_mem _ hp))
    unfold calSets updateFrameSets
    rw [e1, i1]
    refine ⟨rfl, ?_⟩
    rcases hr : fs.feed c t with ⟨s, _ | err⟩ <;> rw [hr] at e2 e3 e4
    · intro p hp
      rcases List.mem_cons.mp hp with rfl | hp
      · exact ⟨e2, by rw [e3, e4]; exact o2⟩
      · rw [i1] at i2; exact i2 p hp
    · intro p hp
      rcases List.mem_cons.mp hp with rfl | hp
      · exact ⟨e2, by rw [e3, e4]; exact o2⟩
      · exact hd p (List.mem_cons_of_mem _ hp)

/-- C104: an epic in any timezone, clock changes included, with any number of new frame sets, and ticks that are of the years 2 to 9997 in that
zone: every tick has the effect, and the exceptions, that it would have if the calendar had no end. -/
theorem C104_epic_any_zone (inst : ℤ → ℤ) (ep : Epic) (hz : Spec.NearUTC ep.zone inst) (ho : ∀ x, |ep.zone.off x| < 24 * (60 * (60 * 1000000)))
    (hs : ∀ p ∈ ep.frameSets, p.2.unit = .tick ∨ (Spec.Accepted p.2.unit p.2.qty ∧ Spec.NewFrames p.2.unit p.2.qty p.2)) (ts : List Tick)
    (hts : ∀ t ∈ ts, 2 ≤ yearOf (t.dt.to ep.zone).wall ∧ yearOf (t.dt.to ep.zone).wall ≤ 9997 ∧
      ∀ p ∈ ep.frameSets, p.2.unit = .tick ∨ Spec.Inner p.2.unit p.2.qty (t.dt.to ep.zone).wall) (t : Tick) (ht : t ∈ ts) (pre : List Tick)
    (hp : ∀ x ∈ pre, x ∈ ts) :
    (pre.foldl (fun e x => (e.calTick inst x).1) ep).calTick inst t =
      Spec.endlessTick (pre.foldl (fun e x => (Spec.endlessTick e x).1) ep) t := by
  have step : ∀ (S : Unit' → ℤ → Prop) (e : Epic) (x : Tick), e.zone = ep.zone → (∀ p ∈ e.frameSets, LateSet p.2 ∧ S p.2.unit p.2.qty) →
      2 ≤ yearOf (x.dt.to ep.zone).wall → yearOf (x.dt.to ep.zone).wall ≤ 9997 →
      (∀ u q, S u q → u = .tick ∨ Spec.Inner u q (x.dt.to ep.zone).wall) →
      e.calTick inst x = Spec.endlessTick e x ∧ (e.calTick inst x).1.zone = ep.zone ∧
      ∀ p ∈ (e.calTick inst x).1.frameSets, LateSet p.2 ∧ S p.2.unit p.2.qty := by
    intro S e x h1 h2 h3 h4 h5
    have hto : x.dt.calTo e.zone = .ok (x.dt.to e.zone) := by
      have hw : inCal (x.dt.utc + ep.zone.off x.dt.utc) = true := (inCal_iff _).mpr ⟨by change 2 ≤ yearOf (x.dt.utc + _) at h3; omega, by change yearOf (x.dt.utc + _) ≤ 9997 at h4; omega⟩
      have hu : inCal x.dt.utc = true := by
        have l1 := (le_yearOf_iff 2 _).mp h3
        have l2 : (x.dt.to ep.zone).wall < mfirst (12 * 9998) * dayUs := by
          by_contra h
          have := (le_yearOf_iff 9998 _).mpr (not_lt.mp h)
          omega
        have e1 : mfirst (12 * 2) = 366 := by decide +kernel
        have e2 : mfirst (12 * 9998) = 3651330 := by decide +kernel
        rw [e1] at l1; rw [e2] at l2
        have := abs_lt.mp (ho x.dt.utc)
        unfold DT.to at l1 l2
        dsimp only at l1 l2
        rw [inCal_bounds]
        simp only [dayUs, hourUs, minUs, secUs] at *
        omega
      unfold DT.calTo
      rw [h1, hw, hu]
      simp
    unfold Epic.calTick Spec.endlessTick
    rw [hto]
    dsimp only
    split_ifs with hlt
    · exact ⟨rfl, h1, h2⟩
    · unfold Epic.accept Epic.calAccept
      dsimp only
      obtain ⟨k1, k2⟩ := calSets_late (inst := inst)
        (c := ⟨e.zone, some (({ e with lastTick := { x with dt := x.dt.to e.zone } } : Epic).isMarketOpen, ordOf (x.dt.to e.zone).wall)⟩)
        (by rw [h1]; exact hz) { x with dt := x.dt.to e.zone } S (by dsimp only; rw [h1]; exact h5) e.frameSets h2
      exact ⟨by rw [k1], h1, k2⟩
  have fits : ∀ x ∈ ts, ∀ u q, (∃ p0 ∈ ep.frameSets, p0.2.unit = u ∧ p0.2.qty = q) → u = .tick ∨ Spec.Inner u q (x.dt.to ep.zone).wall := by
    rintro x hx u q ⟨p0, m0, rfl, rfl⟩
    exact (hts x hx).2.2 p0 m0
  have key : ∀ (pre : List Tick) (e : Epic), (∀ x ∈ pre, x ∈ ts) → e.zone = ep.zone →
      (∀ p ∈ e.frameSets, LateSet p.2 ∧ ∃ p0 ∈ ep.frameSets, p0.2.unit = p.2.unit ∧ p0.2.qty = p.2.qty) →
      (pre.foldl (fun e x => (e.calTick inst x).1) e).calTick inst t =
        Spec.endlessTick (pre.foldl (fun e x => (Spec.endlessTick e x).1) e) t := by
    intro pre
    induction pre with
    | nil =>
      intro e _ h1 h2
      exact (step (fun u q => ∃ p0 ∈ ep.frameSets, p0.2.unit = u ∧ p0.2.qty = q) e t h1 h2 (hts t ht).1 (hts t ht).2.1 (fits t ht)).1
    | cons x pre ih =>
      intro e hp h1 h2
      have hx := hp x (List.mem_cons_self ..)
      obtain ⟨s1, s2, s3⟩ := step (fun u q => ∃ p0 ∈ ep.frameSets, p0.2.unit = u ∧ p0.2.qty = q) e x h1 h2 (hts x hx).1 (hts x hx).2.1 (fits x hx)
      rw [List.foldl_cons, List.foldl_cons, ← s1]
      exact ih _ (fun y hy => hp y (List.mem_cons_of_mem _ hy)) s2 s3
  refine key pre ep hp rfl ?_
  intro p hm
  refine ⟨?_, p, hm, rfl, rfl⟩
  rcases hs p hm with h | ⟨h1, h2⟩
  · exact .inl h
  · exact .inr ⟨accepted_tiles h1, ⟨rfl, rfl, .inl (by unfold FrameSet.current; rw [h2.frames]; rfl)⟩⟩

/-- The hypotheses of `C104_epic_any_zone`: an epic in Paris with frames of ticks and of hours, and a tick of the day when clocks go forward. -/
example (ep : Epic) : let e : Epic := { ep with zone := Zone.paris2019, frameSets := [("t", Demo.calSet .tick 10), ("h", Demo.calSet .hour 4)] }
    (∀ x, |e.zone.off x| < 24 * (60 * (60 * 1000000))) ∧
    (∀ p ∈ e.frameSets, p.2.unit = .tick ∨ (Spec.Accepted p.2.unit p.2.qty ∧ Spec.NewFrames p.2.unit p.2.qty p.2)) ∧
    2 ≤ yearOf (Demo.parisOne.dt.to e.zone).wall ∧ yearOf (Demo.parisOne.dt.to e.zone).wall ≤ 9997 ∧
      ∀ p ∈ e.frameSets, p.2.unit = .tick ∨ Spec.Inner p.2.unit p.2.qty (Demo.parisOne.dt.to e.zone).wall := by
  have hy : 2 ≤ yearOf (Demo.parisOne.dt.to Zone.paris2019).wall ∧ yearOf (Demo.parisOne.dt.to Zone.paris2019).wall ≤ 9997 := by decide +kernel
  refine ⟨?_, ?_, hy.1, hy.2, ?_⟩
  · intro x
    dsimp only [Zone.paris2019]
    have : hourUs = 3600000000 := by decide
    rw [abs_lt]
    split_ifs <;> omega
  · intro p hp
    rcases List.mem_cons.mp hp with rfl | hp
    · exact .inl rfl
    · rw [List.mem_singleton.mp hp]
      exact .inr ⟨⟨rfl, by decide, by decide⟩, ⟨rfl, rfl, rfl, rfl⟩⟩
  · intro p hp
    rcases List.mem_cons.mp hp with rfl | hp
    · exact .inl rfl
    · rw [List.mem_singleton.mp hp]
      exact .inr ⟨hy.1, hy.2, fun h => by cases h⟩

/-! ## The world -/

/-- Spec: the zone of every epic is near UTC. -/
def Spec.ZonesNear (inst : ℕ → ℤ → ℤ) (w : World) : Prop :=
  ∀ e ep, w.epics[e]? = some ep → Spec.NearUTC ep.zone (inst e) ∧ ∀ x, |ep.zone.off x| < 24 * (60 * (60 * 1000000))

/-- Spec: a program whose frame sets are new when they are added, and whose ticks are of the years 2 to 9997 in the zone of their epic, with room
for the frames of several years of the epic. -/
structure Spec.InnerProgram (w : World) (l : List Cmd) : Prop where
  sets : ∀ e ref fs, Cmd.addFrameSet e ref fs ∈ l → fs.unit = .tick ∨ (Spec.Accepted fs.unit fs.qty ∧ Spec.NewFrames fs.unit fs.qty fs)
  years : ∀ e t ep, Cmd.tick e t ∈ l → w.epics[e]? = some ep → 2 ≤ yearOf (t.dt.to ep.zone).wall ∧ yearOf (t.dt.to ep.zone).wall ≤ 9997
  room : ∀ e t ep ref fs, Cmd.tick e t ∈ l → w.epics[e]? = some ep → Cmd.addFrameSet e ref fs ∈ l → fs.unit = .year →
    fs.qty ≤ yearOf (t.dt.to ep.zone).wall ∧ yearOf (t.dt.to ep.zone).wall + fs.qty ≤ 9998

/-- The zones are those of the beginning, and the frame sets are among those of `S` and in order. -/
def LateWorld (w₀ : World) (S : ℕ → Unit' → ℤ → Prop) (w : World) : Prop :=
  ∀ e ep, w.epics[e]? = some ep → (∃ ep₀, w₀.epics[e]? = some ep₀ ∧ ep.zone = ep₀.zone) ∧ ∀ p ∈ ep.frameSets, LateSet p.2 ∧ S e p.2.unit p.2.qty

theorem LateWorld.set {w₀ : World} {S : ℕ → Unit' → ℤ → Prop} {w w' : World} (h : LateWorld w₀ S w) {e : ℕ} {ep ep' : Epic}
    (hep : w.epics[e]? = some ep) (hs : w'.epics = w.epics.set e ep') (hz : ep'.zone = ep.zone)
    (hf : ∀ p ∈ ep'.frameSets, LateSet p.2 ∧ S e p.2.unit p.2.qty) : LateWorld w₀ S w' := by
  intro k x hx
  rw [hs, List.getElem?_set] at hx
  split_ifs at hx with h1 h2
  · cases hx
    subst h1
    obtain ⟨⟨ep₀, k1, k2⟩, -⟩ := h e ep hep
    exact ⟨⟨ep₀, k1, hz.trans k2⟩, hf⟩
  · exact h k x hx

theorem mem_dict_set {α : Type} {d : Dict α} {r : String} {v : α} {p : String × α} (h : p ∈ d.set r v) : p ∈ d ∨ p = (r, v) := by
  unfold Dict.set at h
  split at h
  · obtain ⟨x, hx, rfl⟩ := List.mem_map.mp h
    split
    · exact .inr rfl
    · exact .inl hx
  · rcases List.mem_append.mp h with h | h
    · exact .inl h
    · exact .inr (by simpa using h)

theorem LateSet.addIndicator {fs : FrameSet} (h : LateSet fs) (ind : Indicator) : LateSet (fs.addIndicator ind).1 ∧
    (fs.addIndicator ind).1.unit = fs.unit ∧ (fs.addIndicator ind).1.qty = fs.qty := by
  obtain ⟨-, -, h3, h4⟩ := addIndicator_kept fs ind
  have hc := addIndicator_current fs ind
  refine ⟨?_, h3, h4⟩
  rcases h with h | ⟨hT, h⟩
  · exact .inl (h3.trans h)
  · right
    rw [h3, h4]
    refine ⟨hT, h3, h4, ?_⟩
    rcases h.cur with hn | ⟨a, pe, ⟨i, f, k1, k2⟩, k3⟩
    · exact .inl (hc.trans hn)
    · exact .inr ⟨a, pe, ⟨i, f, hc.trans k1, k2⟩, k3⟩

theorem calTo_inner {d : DT} {z : Zone} (ho : |z.off d.utc| < 24 * (60 * (60 * 1000000))) (h3 : 2 ≤ yearOf (d.to z).wall)
    (h4 : yearOf (d.to z).wall ≤ 9997) : d.calTo z = .ok (d.to z) := by
  have hw : inCal (d.utc + z.off d.utc) = true :=
    (inCal_iff _).mpr ⟨by change 2 ≤ yearOf (d.utc + _) at h3; omega, by change yearOf (d.utc + _) ≤ 9997 at h4; omega⟩
  have hu : inCal d.utc = true := by
    have l1 := (le_yearOf_iff 2 _).mp h3
    have l2 : (d.to z).wall < mfirst (12 * 9998) * dayUs := by
      by_contra h
      have := (le_yearOf_iff 9998 _).mpr (not_lt.mp h)
      omega
    have e1 : mfirst (12 * 2) = 366 := by decide +kernel
    have e2 : mfirst (12 * 9998) = 3651330 := by decide +kernel
    rw [e1] at l1; rw [e2] at l2
    have := abs_lt.mp ho
    unfold DT.to at l1 l2
    dsimp only at l1 l2
    rw [inCal_bounds]
    simp only [dayUs, hourUs, minUs, secUs] at *
    omega
  unfold DT.calTo
  rw [hw, hu]
  simp

theorem LateWorld.exec {env : Env} {inst : ℕ → ℤ → ℤ} {w₀ : World} {S : ℕ → Unit' → ℤ → Prop} {w : World} (h : LateWorld w₀ S w)
    (hz : Spec.ZonesNear inst w₀) (c : Cmd)
    (hs : ∀ e ref fs, c = .addFrameSet e ref fs → LateSet fs ∧ S e fs.unit fs.qty)
    (ht : ∀ e t ep, c = .tick e t → w₀.epics[e]? = some ep → 2 ≤ yearOf (t.dt.to ep.zone).wall ∧ yearOf (t.dt.to ep.zone).wall ≤ 9997 ∧
      ∀ u q, S e u q → u = .tick ∨ Spec.Inner u q (t.dt.to ep.zone).wall) :
    w.calExec env inst c = w.exec env c ∧ LateWorld w₀ S (w.exec env c).1 := by
  cases c with
  | tick e t =>
    rcases hep : w.epics[e]? with _ | ep
    · have h1 : w.exec env (.tick e t) = (w, some .attr) := by simp only [World.exec, World.onNewTick, hep]
      have h2 : w.calExec env inst (.tick e t) = (w, some .attr) := by simp only [World.calExec, World.calTick, hep]
      rw [h1, h2]
      exact ⟨rfl, h⟩
    · obtain ⟨⟨ep₀, k1, k2⟩, k3⟩ := h e ep hep
      obtain ⟨z1, z2⟩ := hz e ep₀ k1
      obtain ⟨y1, y2, y3⟩ := ht e t ep₀ rfl k1
      rw [← k2] at z1 z2 y1 y2 y3
      obtain ⟨s1, s2⟩ := calSets_late (inst := inst e)
        (c := ⟨ep.zone, some (({ ep with lastTick := { t with dt := t.dt.to ep.zone } } : Epic).isMarketOpen, ordOf (t.dt.to ep.zone).wall)⟩)
        z1 { t with dt := t.dt.to ep.zone } (S e) y3 ep.frameSets k3
      have hacc : ep.calAccept (inst e) { t with dt := t.dt.to ep.zone } = ep.accept { t with dt := t.dt.to ep.zone } := by
        unfold Epic.calAccept Epic.accept
        dsimp only
        rw [s1]
      constructor
      · simp only [World.calExec, World.calTick, World.exec, World.onNewTick, hep, calTo_inner (z2 _) y1 y2, hacc]
        rfl
      · rcases tick_effect env w e t with ⟨g, -⟩ | ⟨x, g1, -, g2, -⟩
        · rw [g]; exact h
        · rw [hep] at g1
          cases g1
          refine h.set hep g2 rfl ?_
          rw [← hacc]
          exact s2
  | op o =>
    refine ⟨rfl, ?_⟩
    intro k x hx
    change (w.step o).1.epics[k]? = some x at hx
    rw [(step_epics w o).1] at hx
    exact h k x hx
  | addFrameSet e ref fs =>
    refine ⟨rfl, ?_⟩
    simp only [World.exec, World.addFrameSet]
    rcases hep : w.epics[e]? with _ | ep
    · exact h
    · dsimp only
      unfold Epic.addFrameSet
      rcases hg : ep.frameSets.get? ref with _ | old
      · dsimp only
        refine h.set hep rfl rfl ?_
        intro p hp
        rcases mem_dict_set hp with hp | rfl
        · exact (h e ep hep).2 p hp
        · exact hs e ref fs rfl
      · exact h
  | addStrategy e s =>
    refine ⟨rfl, ?_⟩
    simp only [World.exec, World.addStrategy]
    rcases hep : w.epics[e]? with _ | ep
    · exact h
    · rcases hst : w.strategies[s]? with _ | st
      · exact h
      · dsimp only
        rcases hg : ep.strategies.get? st.ref with _ | old
        · dsimp only
          refine h.set (ep' := { ep with strategies := ep.strategies.set st.ref s }) hep ?_ rfl (h e ep hep).2
          unfold World.modStrategy World.modEpic
          dsimp only
          rw [List.modify_eq_set_getElem?, hep]
          rfl
        · exact h
  | addIndicator e ref ind =>
    refine ⟨rfl, ?_⟩
    simp only [World.exec, World.addIndicator]
    rcases hep : w.epics[e]? with _ | ep
    · exact h
    · dsimp only
      rcases hg : ep.frameSets.get? ref with _ | fs
      · exact h
      · dsimp only
        refine h.set hep rfl rfl ?_
        intro p hp
        have hk := (h e ep hep).2
        rcases mem_dict_set hp with hp | rfl
        · exact hk p hp
        · obtain ⟨k1, k2⟩ := hk _ (Dict.mem_of_get? hg)
          obtain ⟨l1, l2, l3⟩ := k1.addIndicator ind
          exact ⟨l1, by dsimp only; rw [l2, l3]; exact k2⟩

/-- C104: the whole program, strategies and trades included, in any timezones: as long as ticks are of the years 2 to 9997, every command has the
effect and the exception that it would have if the calendar had no end.  So what is proved of runs in a calendar without end holds of these. -/
theorem C104_world (env : Env) (inst : ℕ → ℤ → ℤ) (w : World) (hw : w.Init) (hz : Spec.ZonesNear inst w) (l : List Cmd)
    (hl : Spec.InnerProgram w l) (pre : List Cmd) (c : Cmd) (post : List Cmd) (hpre : l = pre ++ c :: post) :
    (w.calRun env inst pre).calExec env inst c = (w.runCmds env pre).exec env c := by
  let S : ℕ → Unit' → ℤ → Prop := fun e u q => ∃ ref fs, Cmd.addFrameSet e ref fs ∈ l ∧ fs.unit = u ∧ fs.qty = q
  have hset : ∀ e ref fs, Cmd.addFrameSet e ref fs ∈ l → LateSet fs ∧ S e fs.unit fs.qty := by
    intro e ref fs hm
    refine ⟨?_, ref, fs, hm, rfl, rfl⟩
    rcases hl.sets e ref fs hm with h | ⟨h1, h2⟩
    · exact .inl h
    · exact .inr ⟨accepted_tiles h1, ⟨rfl, rfl, .inl (by unfold FrameSet.current; rw [h2.frames]; rfl)⟩⟩
  have htick : ∀ e t ep, Cmd.tick e t ∈ l → w.epics[e]? = some ep → 2 ≤ yearOf (t.dt.to ep.zone).wall ∧ yearOf (t.dt.to ep.zone).wall ≤ 9997 ∧
      ∀ u q, S e u q → u = .tick ∨ Spec.Inner u q (t.dt.to ep.zone).wall := by
    intro e t ep hm hep
    obtain ⟨y1, y2⟩ := hl.years e t ep hm hep
    refine ⟨y1, y2, ?_⟩
    rintro u q ⟨ref, fs, hf, rfl, rfl⟩
    exact .inr ⟨y1, y2, fun hy => hl.room e t ep ref fs hm hep hf hy⟩
  have step : ∀ (w' : World) (x : Cmd), x ∈ l → LateWorld w S w' → w'.calExec env inst x = w'.exec env x ∧ LateWorld w S (w'.exec env x).1 :=
    fun w' x hx hw' => hw'.exec hz x (fun e ref fs he => hset e ref fs (he ▸ hx)) (fun e t ep he => htick e t ep (he ▸ hx))
  have h0 : LateWorld w S w := by
    intro e ep hep
    refine ⟨⟨ep, hep, rfl⟩, ?_⟩
    obtain ⟨ref, z, o, c, td, hd, p, -, rfl⟩ := hw.epics ep (List.mem_of_getElem? hep)
    intro x hx
    cases hx
  have key : ∀ (pre : List Cmd) (w' : World), (∀ x ∈ pre, x ∈ l) → LateWorld w S w' →
      w'.calRun env inst pre = w'.runCmds env pre ∧ LateWorld w S (w'.runCmds env pre) := by
    intro pre
    induction pre with
    | nil => intro w' _ h; exact ⟨rfl, h⟩
    | cons x pre ih =>
      intro w' hp h
      obtain ⟨s1, s2⟩ := step w' x (hp x (List.mem_cons_self ..)) h
      obtain ⟨i1, i2⟩ := ih (w'.exec env x).1 (fun y hy => hp y (List.mem_cons_of_mem _ hy)) s2
      refine ⟨?_, i2⟩
      unfold World.calRun at i1 ⊢
      rw [List.foldl_cons, s1]
      exact i1
  obtain ⟨k1, k2⟩ := key pre w (fun x hx => by rw [hpre]; exact List.mem_append_left _ hx) h0
  rw [k1]
  exact (step _ c (by rw [hpre]; exact List.mem_append_right _ (List.mem_cons_self ..)) k2).1

/-- A desk with one epic in Paris. -/
def Demo.parisDesk : World := ⟨[Epic.new "CAC" Zone.paris2019 (9 * 60) (17 * 60) [] [] 0], [], [Provider.new .backtests], [], []⟩

/-- Frames of four hours and a tick of the day when clocks go forward. -/
def Demo.parisScript : List Cmd := [.addFrameSet 0 "h" (Demo.calSet .hour 4), .tick 0 Demo.parisOne]

/-- The hypotheses of `C104_world`. -/
example : Demo.parisDesk.Init ∧ Spec.ZonesNear (fun _ => Demo.parisInst) Demo.parisDesk ∧ Spec.InnerProgram Demo.parisDesk Demo.parisScript := by
  have hh : hourUs = 3600000000 := by decide
  have h1 : ∀ (e : ℕ) (ep : Epic), Demo.parisDesk.epics[e]? = some ep → ep.zone = Zone.paris2019 := by
    intro e ep h
    have := List.mem_of_getElem? h
    rw [List.mem_singleton.mp this]
    rfl
  have hy : 2 ≤ yearOf (Demo.parisOne.dt.to Zone.paris2019).wall ∧ yearOf (Demo.parisOne.dt.to Zone.paris2019).wall ≤ 9997 := by decide +kernel
  refine ⟨⟨?_, ?_, ?_, rfl, rfl⟩, ?_, ⟨?_, ?_, ?_⟩⟩
  · intro ep h
    exact ⟨"CAC", _, _, _, [], [], 0, by decide, List.mem_singleton.mp h⟩
  · intro s h; cases h
  · intro p h
    exact ⟨.backtests, List.mem_singleton.mp h⟩
  · intro e ep h
    rw [h1 e ep h]
    refine ⟨⟨?_, ?_, ?_⟩, ?_⟩ <;> intro x
    · unfold Zone.paris2019
      dsimp only
      split_ifs <;> omega
    · unfold Zone.paris2019
      dsimp only
      split_ifs <;> omega
    · unfold Demo.parisInst
      dsimp only
      rw [abs_lt]
      split_ifs <;> omega
    · dsimp only [Zone.paris2019]
      rw [abs_lt]
      split_ifs <;> omega
  · intro e ref fs h
    simp only [Demo.parisScript, List.mem_cons, Cmd.addFrameSet.injEq, reduceCtorEq, List.not_mem_nil, or_false] at h
    obtain ⟨-, -, rfl⟩ := h
    exact .inr ⟨⟨rfl, by decide, by decide⟩, ⟨rfl, rfl, rfl, rfl⟩⟩
  · intro e t ep h hep
    simp only [Demo.parisScript, List.mem_cons, Cmd.tick.injEq, reduceCtorEq, List.not_mem_nil, or_false, false_or] at h
    obtain ⟨-, rfl⟩ := h
    rw [h1 e ep hep]
    exact hy
  · intro e t ep ref fs _ _ h hu
    simp only [Demo.parisScript, List.mem_cons, Cmd.addFrameSet.injEq, reduceCtorEq, List.not_mem_nil, or_false] at h
    obtain ⟨-, -, rfl⟩ := h
    cases hu

/-- C104: a tick beyond an end of the calendar: whatever raises, the conversion or a frame set, the exception leaves `Epic.on_new_tick` before the
trades are revalued and before any strategy is told. -/
theorem C104_world_refused (env : Env) (inst : ℕ → ℤ → ℤ) (w : World) (e : ℕ) (ep : Epic) (t : Tick) (err : PyErr) (hep : w.epics[e]? = some ep)
    (h : (ep.calTick (inst e) t).2 = some err) :
    (w.calExec env inst (.tick e t)).2 = some err ∧ (w.calExec env inst (.tick e t)).1.trades = w.trades ∧
    (w.calExec env inst (.tick e t)).1.strategies = w.strategies ∧ (w.calExec env inst (.tick e t)).1.providers = w.providers ∧
    (w.calExec env inst (.tick e t)).1.epics[e]? = some (ep.calTick (inst e) t).1 ∧
    ∀ k, k ≠ e → (w.calExec env inst (.tick e t)).1.epics[k]? = w.epics[k]? := by
  have hlt : e < w.epics.length := (List.getElem?_eq_some_iff.mp hep).1
  unfold Epic.calTick at h ⊢
  simp only [World.calExec, World.calTick, hep]
  rcases hc : t.dt.calTo ep.zone with er | dt
  · rw [hc] at h
    cases h
    exact ⟨rfl, rfl, rfl, rfl, hep, fun _ _ => rfl⟩
  · rw [hc] at h
    dsimp only at h ⊢
    by_cases hl : dt.lt ep.lastTick.dt = true
    · simp only [hl, if_true] at h ⊢
      cases h
      exact ⟨rfl, trivial, trivial, trivial, hep, fun _ _ => trivial⟩
    · simp only [hl] at h ⊢
      simp only [Bool.false_eq_true, if_false] at h ⊢
      rw [h]
      refine ⟨rfl, rfl, rfl, rfl, ?_, ?_⟩
      · exact List.getElem?_set_self hlt
      · intro k hk
        exact List.getElem?_set_ne (Ne.symm hk)

/-- An instant that Paris cannot write: the last half hour of the year 9999 in London. -/
example : letI := Arith.exact
    ∃ err ep, Demo.parisDesk.epics[0]? = some ep ∧
      (ep.calTick Demo.parisInst ⟨⟨midnight 10000 1 1 - minUs, midnight 10000 1 1 - minUs, 0⟩, 10, 11⟩).2 = some err := by
  letI := Arith.exact
  exact ⟨.overflow, _, rfl, by decide +kernel⟩

end
end Estrade
