import Verif.Bounded
import Verif.Lemmas.Rezone
import Verif.Lemmas.Running
import Verif.Lemmas.Lived

/-! # Lemmas on frame sets with the datetimes of the years 1 to 9999 -/

set_option linter.style.haveILetI false
set_option linter.unusedSectionVars false
set_option autoImplicit false

namespace Estrade

/-! ## The range -/

theorem mfirst_le_iff (i n : ℤ) : mfirst i ≤ n ↔ i ≤ midx n := by
  obtain ⟨g1, g2, _⟩ := midx_spec n
  constructor
  · intro h
    by_contra hlt
    have : mfirst (midx n + 1) ≤ mfirst i := mfirst_strictMono.monotone (by omega)
    omega
  · intro h
    exact (mfirst_strictMono.monotone h).trans g1

theorem yearOf_midx (w : ℤ) : yearOf w = midx (ordOf w) / 12 := (midx_div _).1.symm

theorem le_yearOf_iff (y w : ℤ) : y ≤ yearOf w ↔ mfirst (12 * y) * dayUs ≤ w := by
  rw [mul_day_le, mfirst_le_iff, yearOf_midx]
  omega

theorem inCal_iff (w : ℤ) : inCal w = true ↔ 1 ≤ yearOf w ∧ yearOf w ≤ 9999 := by
  have h1 := le_yearOf_iff 1 w
  have h2 := le_yearOf_iff 10000 w
  have e1 : mfirst (12 * 1) = 1 := by decide +kernel
  have e2 : mfirst (12 * 10000) = 3652060 := by decide +kernel
  rw [e1] at h1; rw [e2] at h2
  unfold inCal
  rw [decide_eq_true_eq]
  omega

theorem inCal_bounds {w : ℤ} : inCal w = true ↔ dayUs ≤ w ∧ w < 3652060 * dayUs := by
  unfold inCal; rw [decide_eq_true_eq]

theorem inCal_between {a b x : ℤ} (ha : inCal a = true) (hb : inCal b = true) (h1 : a ≤ x) (h2 : x ≤ b) : inCal x = true := by
  rw [inCal_bounds] at *
  omega

/-- The exceptions for datetimes out of range. -/
def CalErr (e : PyErr) : Prop := e = .overflow ∨ e = .value

theorem calErr_cal (u : Unit') : CalErr (calErr u) := by
  unfold calErr
  split_ifs
  · exact .inr rfl
  · exact .inl rfl

theorem calEnd_ok {z : Zone} {inst : ℤ → ℤ} {u : Unit'} {q s e : ℤ} (h : calEnd z inst u q s = .ok e) :
    inCal e = true ∧ e = z.resolve (shiftUnit u q s) := by
  unfold calEnd at h
  dsimp only at h
  split_ifs at h with h1 h2 h3 h4
  · cases h
    refine ⟨by simpa using h1, h3.symm⟩
  · cases h
    simp only [Bool.and_eq_true] at h4
    exact ⟨h4.2, rfl⟩

theorem calEnd_error {z : Zone} {inst : ℤ → ℤ} {u : Unit'} {q s : ℤ} {e : PyErr} (h : calEnd z inst u q s = .error e) : CalErr e := by
  unfold calEnd at h
  dsimp only at h
  split_ifs at h
  · cases h; exact calErr_cal u
  · cases h; exact .inl rfl
  · cases h; exact .inl rfl

theorem calStart_ok {u : Unit'} {q w s : ℤ} (h : calStart u q w = .ok s) : inCal s = true ∧ frameStart u q w = .ok s := by
  unfold calStart at h
  rcases hf : frameStart u q w with e | s'
  · rw [hf] at h; cases h
  · rw [hf] at h
    dsimp only at h
    split_ifs at h with h1
    · cases h; exact ⟨h1, rfl⟩

/-! ## The current frame -/

/-- The bounds of the current frame. -/
def Cur (fs : FrameSet) (b : ℤ × Option ℤ) : Prop := ∃ i f, fs.current = some (i, f) ∧ f.bounds = b

section
variable [Arith]

theorem feedCreate_cur (fs : FrameSet) (c : Ctx) (tick : Tick) (ps : ℤ) (pe : Option ℤ) :
    ((fs.feedCreate c tick ps pe).1 = fs ∧ ∃ e, (fs.feedCreate c tick ps pe).2 = some e) ∨
    (Cur (fs.feedCreate c tick ps pe).1 (ps, pe) ∧ (fs.feedCreate c tick ps pe).1.unit = fs.unit ∧
      (fs.feedCreate c tick ps pe).1.qty = fs.qty ∧
      (fs.feedCreate c tick ps pe).1.heap.map Frame.bounds = fs.heap.map Frame.bounds ++ [(ps, pe)]) := by
  rcases feedCreate_bounds fs c tick ps pe with h | ⟨h1, h2, h3, h4⟩
  · exact .inl h
  · refine .inr ⟨?_, h3, h4, h1⟩
    have hl := congrArg (fun l : List (ℤ × Option ℤ) => l[fs.heap.length]?) h1
    simp only [List.getElem?_map] at hl
    rw [List.getElem?_append_right (by simp), List.length_map, Nat.sub_self] at hl
    rcases hh : (fs.feedCreate c tick ps pe).1.heap[fs.heap.length]? with _ | f
    · rw [hh] at hl; cases hl
    · rw [hh] at hl
      refine ⟨fs.heap.length, f, ?_, Option.some.inj hl⟩
      unfold FrameSet.current
      rw [h2]
      simp only [hh, Option.map_some]

theorem feedLast_cur {fs : FrameSet} {b : ℤ × Option ℤ} (h : Cur fs b) (c : Ctx) (tick : Tick) : Cur (fs.feedLast c tick).1 b := by
  obtain ⟨i, f, h1, h2⟩ := h
  obtain ⟨h3, h4⟩ := current_heap h1
  have hlt := (List.getElem?_eq_some_iff.mp h4).1
  refine ⟨i, (feedInds fs.heap i tick c.marketOpen fs.indicators (f.track tick)).1, ?_, ?_⟩
  · unfold FrameSet.feedLast
    rw [h1]
    dsimp only
    unfold FrameSet.current
    dsimp only
    rw [h3]
    simp only [List.getElem?_set_self hlt, Option.map_some]
  · rw [feedInds_bounds, track_bounds]; exact h2

theorem addIndicator_kept (fs : FrameSet) (ind : Indicator) : (fs.addIndicator ind).1.heap = fs.heap ∧
    (fs.addIndicator ind).1.frames = fs.frames ∧ (fs.addIndicator ind).1.unit = fs.unit ∧ (fs.addIndicator ind).1.qty = fs.qty := by
  unfold FrameSet.addIndicator
  rcases ind.kind <;> exact ⟨rfl, rfl, rfl, rfl⟩

theorem addIndicator_current (fs : FrameSet) (ind : Indicator) : (fs.addIndicator ind).1.current = fs.current := by
  obtain ⟨h1, h2, -, -⟩ := addIndicator_kept fs ind
  unfold FrameSet.current
  rw [h1, h2]

/-! ## The loop: an induction -/

/-- One iteration: a property of frame sets that every gap frame keeps, holds after the loop, whatever it ends with. -/
theorem calFill_induct (inst : ℤ → ℤ) (c : Ctx) (ps : ℤ) (P : FrameSet → Prop)
    (step : ∀ fs i f pe e, P fs → fs.current = some (i, f) → f.periodEnd = some pe → pe < ps →
      calEnd c.zone inst fs.unit fs.qty pe = .ok e → P (fs.feedCreate c f.last pe (some e)).1) (n : ℕ) :
    ∀ fs, P fs → P (calFill inst c ps n fs).1 := by
  induction n with
  | zero =>
    intro fs h
    unfold calFill
    rcases hc : fs.current with _ | ⟨i, f⟩
    · exact h
    · dsimp only
      rcases hp : f.periodEnd with _ | pe
      · exact h
      · dsimp only
        split_ifs <;> exact h
  | succ n ih =>
    intro fs h
    unfold calFill
    rcases hc : fs.current with _ | ⟨i, f⟩
    · exact h
    · dsimp only
      rcases hp : f.periodEnd with _ | pe
      · exact h
      · dsimp only
        split_ifs with hlt
        · rcases he : calEnd c.zone inst fs.unit fs.qty pe with err | e
          · exact h
          · dsimp only
            have := step fs i f pe e h hc hp hlt he
            rcases hr : fs.feedCreate c f.last pe (some e) with ⟨fs', _ | err⟩ <;> rw [hr] at this
            · exact ih fs' this
            · exact this
        · exact h

theorem overTimed_cases (fs : FrameSet) (tick : Tick) :
    (fs.current = none ∧ fs.overTimed tick = .ok true) ∨
    (∃ i f, fs.current = some (i, f) ∧ f.periodEnd = none ∧ fs.overTimed tick = .error .attr) ∨
    (∃ i f pe, fs.current = some (i, f) ∧ f.periodEnd = some pe ∧ fs.overTimed tick = .ok (decide (pe ≤ tick.dt.wall))) := by
  unfold FrameSet.overTimed
  rcases hc : fs.current with _ | ⟨i, f⟩
  · exact .inl ⟨rfl, rfl⟩
  · right
    dsimp only
    rcases hp : f.periodEnd with _ | pe
    · exact .inl ⟨i, f, rfl, hp, rfl⟩
    · exact .inr ⟨i, f, pe, rfl, hp, rfl⟩

theorem calFill_fields (inst : ℤ → ℤ) (c : Ctx) (ps : ℤ) (n : ℕ) (fs : FrameSet) :
    (calFill inst c ps n fs).1.unit = fs.unit ∧ (calFill inst c ps n fs).1.qty = fs.qty := by
  refine calFill_induct inst c ps (fun s => s.unit = fs.unit ∧ s.qty = fs.qty) ?_ n fs ⟨rfl, rfl⟩
  intro s i f pe e h _ _ _ _
  rcases feedCreate_cur s c f.last pe (some e) with ⟨h1, -⟩ | ⟨-, h2, h3, -⟩
  · rw [h1]; exact h
  · exact ⟨h2.trans h.1, h3.trans h.2⟩

/-! ## All bounds are in the calendar -/

/-- All bounds ever made are in the calendar. -/
def AllCal (fs : FrameSet) : Prop := ∀ b ∈ fs.heap.map Frame.bounds, inCal b.1 = true ∧ ∀ e, b.2 = some e → inCal e = true

theorem AllCal.end {fs : FrameSet} (h : AllCal fs) {i : ℕ} {f : Frame} {pe : ℤ} (hc : fs.current = some (i, f)) (hp : f.periodEnd = some pe) :
    inCal pe = true :=
  (h f.bounds (List.mem_map_of_mem (List.mem_of_getElem? (current_heap hc).2))).2 pe hp

theorem AllCal.create {fs : FrameSet} (h : AllCal fs) (c : Ctx) (tick : Tick) {ps : ℤ} {pe : Option ℤ} (h1 : inCal ps = true)
    (h2 : ∀ e, pe = some e → inCal e = true) : AllCal (fs.feedCreate c tick ps pe).1 := by
  rcases feedCreate_cur fs c tick ps pe with ⟨e1, -⟩ | ⟨-, -, -, e1⟩
  · rw [e1]; exact h
  · intro b hb
    rw [e1] at hb
    rcases List.mem_append.mp hb with hb | hb
    · exact h b hb
    · rw [List.mem_singleton.mp hb]; exact ⟨h1, h2⟩

theorem AllCal.fill {fs : FrameSet} (h : AllCal fs) (inst : ℤ → ℤ) (c : Ctx) (ps : ℤ) (n : ℕ) : AllCal (calFill inst c ps n fs).1 := by
  refine calFill_induct inst c ps AllCal ?_ n fs h
  intro s i f pe e hs hc hp _ he
  exact hs.create c f.last (hs.end hc hp) (fun x hx => by cases hx; exact (calEnd_ok he).1)

theorem AllCal.feedLast {fs : FrameSet} (h : AllCal fs) (c : Ctx) (tick : Tick) : AllCal (fs.feedLast c tick).1 := by
  intro b hb
  rw [(feedLast_bounds fs c tick).1] at hb
  exact h b hb

theorem AllCal.timed {fs : FrameSet} (h : AllCal fs) (inst : ℤ → ℤ) (c : Ctx) (tick : Tick) : AllCal (fs.calTimed inst c tick).1 := by
  unfold FrameSet.calTimed
  rcases hs : calStart fs.unit fs.qty tick.dt.wall with e | ps
  · exact h
  · dsimp only
    rcases he : calEnd c.zone inst fs.unit fs.qty ps with e | pe
    · exact h
    · dsimp only
      have hf := h.fill inst c ps calFuel
      rcases hr : calFill inst c ps calFuel fs with ⟨fs', _ | e⟩ <;> rw [hr] at hf
      · exact AllCal.create hf c tick (calStart_ok hs).1 (fun x hx => by cases hx; exact (calEnd_ok he).1)
      · exact hf

theorem AllCal.feed {fs : FrameSet} (h : AllCal fs) (inst : ℤ → ℤ) (c : Ctx) (tick : Tick) (ht : inCal tick.dt.wall = true) :
    AllCal (fs.calFeed inst c tick).1 := by
  unfold FrameSet.calFeed
  split_ifs with hu
  · unfold FrameSet.feed
    rw [if_pos hu]
    split_ifs
    · exact h.create c tick ht (fun x hx => by cases hx)
    · exact h.feedLast c tick
  · rcases overTimed_cases fs tick with ⟨-, ho⟩ | ⟨i, f, -, -, ho⟩ | ⟨i, f, pe, -, -, ho⟩
    · rw [ho]; exact h.timed inst c tick
    · rw [ho]; exact h
    · rw [ho]
      dsimp only
      split_ifs
      · exact h.timed inst c tick
      · exact h.feedLast c tick

/-! ## Termination -/

theorem nd_of_cal {e : PyErr} (h : CalErr e) : e ≠ .diverge := by
  rcases h with rfl | rfl <;> decide

/-- With bounds that move one way the loop ends. -/
theorem calFill_nd {inst : ℤ → ℤ} {c : Ctx} {q : ℤ} (hzp : 0 < q → ∀ x, x ≤ c.zone.resolve x) (hzn : q < 0 → ∀ x, c.zone.resolve x = x) (ps : ℤ)
    {u : Unit'} (hu : u ≠ .tick) (hq : q ≠ 0) (n : ℕ) :
    ∀ fs : FrameSet, fs.unit = u → fs.qty = q → AllCal fs →
    (∀ i f pe, fs.current = some (i, f) → f.periodEnd = some pe → pe < ps → (if 0 < q then ps - pe else pe - dayUs + 1) ≤ n) →
    (calFill inst c ps n fs).2 ≠ some .diverge := by
  induction n with
  | zero =>
    intro fs _ _ hA hn
    unfold calFill
    rcases hc : fs.current with _ | ⟨i, f⟩
    · simp
    · dsimp only
      rcases hp : f.periodEnd with _ | pe
      · simp
      · dsimp only
        split_ifs with hlt
        · exfalso
          have h1 := hn i f pe hc hp hlt
          have h2 := inCal_bounds.mp (hA.end hc hp)
          split_ifs at h1 <;> simp only [Nat.cast_zero] at h1 <;> omega
        · simp
  | succ n ih =>
    intro fs h1 h2 hA hn
    unfold calFill
    rcases hc : fs.current with _ | ⟨i, f⟩
    · simp
    · dsimp only
      rcases hp : f.periodEnd with _ | pe
      · simp
      · dsimp only
        split_ifs with hlt
        · rcases he : calEnd c.zone inst fs.unit fs.qty pe with err | e
          · dsimp only
            intro hx
            exact nd_of_cal (calEnd_error he) (Option.some.inj hx)
          · dsimp only
            obtain ⟨c1, c2⟩ := calEnd_ok he
            rw [h1, h2] at c2
            have hA' := hA.create c f.last (pe := some e) (hA.end hc hp) (fun x hx => by cases hx; exact c1)
            have hnd := feedCreate_nd fs c f.last pe (some e)
            have hcur := feedCreate_cur fs c f.last pe (some e)
            rcases hr : fs.feedCreate c f.last pe (some e) with ⟨fs', _ | err⟩ <;> rw [hr] at hA' hnd hcur
            · dsimp only
              rcases hcur with ⟨-, x, hx⟩ | ⟨hcur, hu', hq', -⟩
              · cases hx
              · refine ih fs' (hu'.trans h1) (hq'.trans h2) hA' ?_
                intro i' f' pe' hc' hp' hlt'
                obtain ⟨i2, f2, hc2, hb2⟩ := hcur
                dsimp only at hc2 hb2
                rw [hc'] at hc2
                cases hc2
                have : pe' = e := by
                  have := congrArg Prod.snd hb2
                  unfold Frame.bounds at this
                  dsimp only at this
                  rw [hp'] at this
                  exact Option.some.inj this
                subst this
                have h5 := hn i f pe hc hp hlt
                push_cast at h5
                rcases lt_or_gt_of_ne hq with hq | hq
                · have := shiftUnit_lt hu hq pe
                  rw [hzn hq] at c2
                  rw [if_neg (by omega)] at h5 ⊢
                  omega
                · have := shiftUnit_gt hu hq pe
                  have := hzp hq (shiftUnit u q pe)
                  rw [if_pos hq] at h5 ⊢
                  omega
            · exact hnd
        · simp

/-! ## Quantities that tile: the bounds are those of unbounded time -/

theorem day_boundary {u : Unit'} {q : ℤ} (hT : Tiles u q) (hu : u ≠ .year) : ∃ k, grid u q k = dayUs := by
  obtain ⟨hq, hd⟩ := hT
  cases u with
  | tick => exact hd.elim
  | second =>
    obtain ⟨d, hd⟩ := hd
    refine ⟨d * 1440, ?_⟩
    simp only [grid, dayUs, hourUs, minUs, secUs]
    linear_combination (-1440 * 1000000) * hd
  | minute =>
    obtain ⟨d, hd⟩ := hd
    refine ⟨d * 24, ?_⟩
    simp only [grid, dayUs, hourUs, minUs, secUs]
    linear_combination (-24 * 60000000) * hd
  | hour =>
    obtain ⟨d, hd⟩ := hd
    refine ⟨d * 2, ?_⟩
    simp only [grid, dayUs, hourUs, minUs, secUs]
    linear_combination (-2 * 3600000000) * hd
  | day => exact ⟨0, by simp [grid]⟩
  | week => exact ⟨0, by simp [grid]⟩
  | month =>
    obtain ⟨d, hd⟩ := hd
    refine ⟨d, ?_⟩
    simp only [grid]
    rw [← hd]
    decide +kernel
  | year => exact absurd rfl hu

theorem calStart_tiles {u : Unit'} {q w : ℤ} (hT : Tiles u q) (hw : inCal w = true) :
    (inCal (grid u q (gidx u q w)) = true → frameStart u q w = .ok (grid u q (gidx u q w)) ∧ calStart u q w = .ok (grid u q (gidx u q w))) ∧
    (¬ inCal (grid u q (gidx u q w)) = true → u = .year ∧ calStart u q w = .error .value) := by
  have hy := (inCal_iff w).mp hw
  have hle := (gidx_spec hT w).1
  have hb := inCal_bounds.mp hw
  rcases eq_or_ne u .year with rfl | hu
  · have hq := hT.1
    have e1 : mfirst (12 * 1) = 1 := by decide +kernel
    have e2 : grid .year q (gidx .year q w) = mfirst (12 * (q * (yearOf w / q))) * dayUs := by
      simp only [grid, gidx]; rw [yearOf_midx]
    have key : inCal (grid .year q (gidx .year q w)) = true ↔ 1 ≤ yearOf w - yearOf w % q := by
      rw [inCal_bounds, sub_emod_eq]
      have h1 : dayUs ≤ grid .year q (gidx .year q w) ↔ mfirst (12 * 1) ≤ mfirst (12 * (q * (yearOf w / q))) := by
        rw [e2, e1]
        conv_lhs => lhs; rw [← one_mul dayUs]
        exact mul_le_mul_iff_of_pos_right (by decide)
      rw [h1, mfirst_strictMono.le_iff_le]
      omega
    refine ⟨fun h => ?_, fun h => ⟨rfl, ?_⟩⟩
    · have := frameStart_grid hT (w := w) (key.mp h)
      refine ⟨this, ?_⟩
      unfold calStart
      rw [this]
      dsimp only
      rw [if_pos h]
    · rw [key] at h
      unfold calStart frameStart replaceFirst
      dsimp only
      rw [if_neg hq.ne', fmod_pos _ hq, if_pos (.inl (by omega))]
  · obtain ⟨k, hk⟩ := day_boundary hT hu
    have hc : inCal (grid u q (gidx u q w)) = true := by
      rw [inCal_bounds]
      refine ⟨?_, by omega⟩
      rw [← hk]
      refine (grid_strictMono hT).monotone ?_
      have := gidx_mono hT (a := dayUs) (b := w) hb.1
      rwa [← hk, gidx_grid hT] at this
    have hs : StartOk u q w := by
      cases u <;> first | trivial | exact hy.1
    refine ⟨fun h => ?_, fun h => absurd hc h⟩
    have := frameStart_grid hT hs
    refine ⟨this, ?_⟩
    unfold calStart
    rw [this]
    dsimp only
    rw [if_pos h]

/-- The end of a period of the grid, in a zone of constant offset. -/
theorem calEnd_tiles {z : Zone} {off : ℤ} (hz : z.Fixed off) {u : Unit'} {q : ℤ} (hT : Tiles u q) (k : ℤ) :
    (inCal (grid u q (k + 1)) = true ∧ inCal (grid u q (k + 1) - off) = true →
      calEnd z (fun w => w - off) u q (grid u q k) = .ok (grid u q (k + 1))) ∧
    (¬ (inCal (grid u q (k + 1)) = true ∧ inCal (grid u q (k + 1) - off) = true) →
      ∃ e, calEnd z (fun w => w - off) u q (grid u q k) = .error e ∧ CalErr e) := by
  unfold calEnd
  dsimp only
  rw [shiftUnit_grid hT, hz.2, if_pos rfl]
  refine ⟨fun h => ?_, fun h => ?_⟩
  · rw [h.1, h.2]; rfl
  · split_ifs with h1 h2
    · exact ⟨_, rfl, calErr_cal u⟩
    · exact ⟨_, rfl, .inl rfl⟩
    · simp only [Bool.not_eq_true', Bool.not_eq_false] at h1 h2
      exact absurd ⟨h1, h2⟩ h

/-- The current frame is a period of the grid that fits in the calendar. -/
structure KInv (u : Unit') (q off : ℤ) (fs : FrameSet) : Prop where
  unit : fs.unit = u
  qty : fs.qty = q
  cur : fs.current = none ∨ ∃ k, Cur fs (grid u q k, some (grid u q (k + 1))) ∧ inCal (grid u q k) = true ∧
    inCal (grid u q (k + 1)) = true ∧ inCal (grid u q (k + 1) - off) = true

theorem KInv.create {u : Unit'} {q off : ℤ} {fs : FrameSet} (h : KInv u q off fs) (c : Ctx) (tick : Tick) {k : ℤ}
    (h0 : inCal (grid u q k) = true) (h1 : inCal (grid u q (k + 1)) = true) (h2 : inCal (grid u q (k + 1) - off) = true) :
    KInv u q off (fs.feedCreate c tick (grid u q k) (some (grid u q (k + 1)))).1 := by
  rcases feedCreate_cur fs c tick (grid u q k) (some (grid u q (k + 1))) with ⟨e1, -⟩ | ⟨e1, e2, e3, -⟩
  · rw [e1]; exact h
  · exact ⟨e2.trans h.unit, e3.trans h.qty, .inr ⟨k, e1, h0, h1, h2⟩⟩

/-- Gap frames that lead to a period that fits raise nothing for the calendar. -/
theorem calFill_eq {c : Ctx} {off : ℤ} (hz : c.zone.Fixed off) {u : Unit'} {q : ℤ} (hT : Tiles u q) {g : ℤ}
    (hg1 : inCal (grid u q (g + 1)) = true) (hg2 : inCal (grid u q (g + 1) - off) = true) (n : ℕ) :
    ∀ (m : ℕ) (fs : FrameSet), KInv u q off fs →
    (∀ k, Cur fs (grid u q k, some (grid u q (k + 1))) → g - (k + 1) ≤ n ∧ g - (k + 1) ≤ m) →
    calFill (fun w => w - off) c (grid u q g) n fs = feedFill c (grid u q g) m fs ∧ KInv u q off (feedFill c (grid u q g) m fs).1 := by
  have hmono := grid_strictMono hT
  induction n with
  | zero =>
    intro m fs h hk
    unfold calFill feedFill
    rcases h.cur with hc | ⟨k, ⟨i, f, hc, hb⟩, -, -, -⟩
    · rw [hc]; exact ⟨rfl, h⟩
    · have hp : f.periodEnd = some (grid u q (k + 1)) := congrArg Prod.snd hb
      have := (hk k ⟨i, f, hc, hb⟩).1
      have hle : ¬ grid u q (k + 1) < grid u q g := not_lt.mpr (hmono.monotone (by push_cast at this; omega))
      rw [hc]
      dsimp only
      rw [hp]
      dsimp only
      rw [if_neg hle, if_neg hle]
      exact ⟨rfl, h⟩
  | succ n ih =>
    intro m fs h hk
    unfold calFill feedFill
    rcases h.cur with hc | ⟨k, ⟨i, f, hc, hb⟩, k1, k2, k3⟩
    · rw [hc]; exact ⟨rfl, h⟩
    · have hp : f.periodEnd = some (grid u q (k + 1)) := congrArg Prod.snd hb
      have hk' := hk k ⟨i, f, hc, hb⟩
      rw [hc]
      dsimp only
      rw [hp]
      dsimp only
      split_ifs with hlt
      · have hlt' := hmono.lt_iff_lt.mp hlt
        rcases m with _ | m
        · exfalso; have := hk'.2; push_cast at this; omega
        · dsimp only
          have hle : grid u q (k + 1 + 1) ≤ grid u q (g + 1) := hmono.monotone (by omega)
          have hge : grid u q (k + 1) ≤ grid u q (k + 1 + 1) := hmono.monotone (by omega)
          have c1 : inCal (grid u q (k + 1 + 1)) = true := inCal_between k2 hg1 hge hle
          have c2 : inCal (grid u q (k + 1 + 1) - off) = true := inCal_between k3 hg2 (by omega) (by omega)
          rw [h.unit, h.qty, (calEnd_tiles hz hT (k + 1)).1 ⟨c1, c2⟩, frameEnd_grid hT, hz.2]
          dsimp only
          have hcr := h.create c f.last k2 c1 c2
          have hcur := feedCreate_cur fs c f.last (grid u q (k + 1)) (some (grid u q (k + 1 + 1)))
          rcases hr : fs.feedCreate c f.last (grid u q (k + 1)) (some (grid u q (k + 1 + 1))) with ⟨fs', _ | e⟩ <;> rw [hr] at hcr hcur
          · dsimp only
            refine ih m fs' hcr ?_
            intro k' hk2
            rcases hcur with ⟨-, x, hx⟩ | ⟨⟨i2, f2, hc2, hb2⟩, -, -, -⟩
            · cases hx
            · obtain ⟨i3, f3, hc3, hb3⟩ := hk2
              dsimp only at hc2
              rw [hc3] at hc2
              cases hc2
              rw [hb3] at hb2
              have := hmono.injective (congrArg Prod.fst hb2)
              push_cast at hk'
              omega
          · exact ⟨rfl, hcr⟩
      · exact ⟨rfl, h⟩

/-- A period number and what makes it fit. -/
def FitsG (u : Unit') (q off g : ℤ) : Prop :=
  inCal (grid u q g) = true ∧ inCal (grid u q (g + 1)) = true ∧ inCal (grid u q (g + 1) - off) = true

theorem grid_le_count {u : Unit'} {q : ℤ} (hT : Tiles u q) {a b : ℤ} (h : a ≤ b) : b - a ≤ grid u q b - grid u q a := by
  have hmono := grid_strictMono hT
  have : ∀ n : ℕ, (n : ℤ) ≤ grid u q (a + n) - grid u q a := by
    intro n
    induction n with
    | zero => simp
    | succ n ih =>
      have := hmono (show a + (n : ℤ) < a + ((n + 1 : ℕ) : ℤ) by push_cast; omega)
      push_cast at this ⊢
      omega
  have := this (b - a).toNat
  rw [Int.toNat_of_nonneg (by omega)] at this
  rwa [add_sub_cancel] at this

/-- A timed frame set and a tick in the calendar. -/
theorem KInv.feed {u : Unit'} {q off : ℤ} {fs : FrameSet} (h : KInv u q off fs) (hT : Tiles u q) {c : Ctx} (hz : c.zone.Fixed off)
    (tick : Tick) (ht : inCal tick.dt.wall = true) :
    KInv u q off (fs.calFeed (fun w => w - off) c tick).1 ∧
    (fs.calFeed (fun w => w - off) c tick = fs.feed c tick ∨
      ¬ FitsG u q off (gidx u q tick.dt.wall) ∧ ∃ e, CalErr e ∧ fs.calFeed (fun w => w - off) c tick = (fs, some e)) ∧
    (FitsG u q off (gidx u q tick.dt.wall) → fs.calFeed (fun w => w - off) c tick = fs.feed c tick) ∧
    (¬ FitsG u q off (gidx u q tick.dt.wall) → (∀ i f pe, fs.current = some (i, f) → f.periodEnd = some pe → pe ≤ tick.dt.wall) →
      ∃ e, CalErr e ∧ fs.calFeed (fun w => w - off) c tick = (fs, some e)) := by
  have hmono := grid_strictMono hT
  have hu : fs.unit ≠ .tick := by rw [h.unit]; exact hT.ne_tick
  have htimed : KInv u q off (fs.calTimed (fun w => w - off) c tick).1 ∧
      (FitsG u q off (gidx u q tick.dt.wall) → fs.calTimed (fun w => w - off) c tick = fs.feedTimed c tick) ∧
      (¬ FitsG u q off (gidx u q tick.dt.wall) → ∃ e, CalErr e ∧ fs.calTimed (fun w => w - off) c tick = (fs, some e)) := by
    obtain ⟨s1, s2⟩ := calStart_tiles hT ht
    unfold FrameSet.calTimed FrameSet.feedTimed
    rw [h.unit, h.qty]
    by_cases f1 : inCal (grid u q (gidx u q tick.dt.wall)) = true
    · rw [(s1 f1).1, (s1 f1).2]
      dsimp only
      by_cases f2 : inCal (grid u q (gidx u q tick.dt.wall + 1)) = true ∧ inCal (grid u q (gidx u q tick.dt.wall + 1) - off) = true
      · rw [(calEnd_tiles hz hT _).1 f2, frameEnd_grid hT, hz.2]
        dsimp only
        obtain ⟨e1, e2⟩ := calFill_eq hz hT f2.1 f2.2 calFuel (fillFuel fs (grid u q (gidx u q tick.dt.wall))) fs h (by
          intro k hk
          obtain ⟨i, f, hc, hb⟩ := hk
          have hp : f.periodEnd = some (grid u q (k + 1)) := congrArg Prod.snd hb
          have hcal : inCal (grid u q (k + 1)) = true := by
            rcases h.cur with hn | ⟨k', ⟨i', f', hc', hb'⟩, -, h2, -⟩
            · rw [hc] at hn; cases hn
            · rw [hc] at hc'
              cases hc'
              have := congrArg Prod.snd (hb.symm.trans hb')
              simp only [Option.some.injEq] at this
              rw [this]; exact h2
          rw [inCal_bounds] at hcal f1
          unfold fillFuel
          rw [hc]
          dsimp only
          rw [hp]
          dsimp only
          unfold calFuel
          rw [Int.toNat_of_nonneg (by decide)]
          rcases le_or_gt (gidx u q tick.dt.wall) (k + 1) with hle | hgt
          · have : (0 : ℤ) ≤ 3652060 * dayUs := by decide
            omega
          · have := grid_le_count hT hgt.le
            have hd : (0 : ℤ) ≤ dayUs := by decide
            omega)
        rw [e1]
        refine ⟨?_, fun _ => rfl, fun hn => absurd ⟨f1, f2.1, f2.2⟩ hn⟩
        rcases hr : feedFill c (grid u q (gidx u q tick.dt.wall)) (fillFuel fs (grid u q (gidx u q tick.dt.wall))) fs with ⟨fs', _ | e⟩
        · rw [hr] at e2
          exact KInv.create e2 c tick f1 f2.1 f2.2
        · rw [hr] at e2
          exact e2
      · obtain ⟨e, e1, e2⟩ := (calEnd_tiles hz hT (gidx u q tick.dt.wall)).2 f2
        rw [e1]
        exact ⟨h, fun hf => absurd hf.2 f2, fun _ => ⟨e, e2, rfl⟩⟩
    · rw [(s2 f1).2]
      exact ⟨h, fun hf => absurd hf.1 f1, fun _ => ⟨_, .inr rfl, rfl⟩⟩
  unfold FrameSet.calFeed FrameSet.feed
  simp only [hu, if_false]
  have over : ∀ b, fs.overTimed tick = .ok b → b = true →
      KInv u q off (fs.calTimed (fun w => w - off) c tick).1 ∧
      (fs.calTimed (fun w => w - off) c tick = fs.feedTimed c tick ∨
        ¬ FitsG u q off (gidx u q tick.dt.wall) ∧ ∃ e, CalErr e ∧ fs.calTimed (fun w => w - off) c tick = (fs, some e)) ∧
      (FitsG u q off (gidx u q tick.dt.wall) → fs.calTimed (fun w => w - off) c tick = fs.feedTimed c tick) ∧
      (¬ FitsG u q off (gidx u q tick.dt.wall) → (∀ i f pe, fs.current = some (i, f) → f.periodEnd = some pe → pe ≤ tick.dt.wall) →
        ∃ e, CalErr e ∧ fs.calTimed (fun w => w - off) c tick = (fs, some e)) := by
    intro b _ _
    refine ⟨htimed.1, ?_, htimed.2.1, fun hn _ => htimed.2.2 hn⟩
    by_cases hf : FitsG u q off (gidx u q tick.dt.wall)
    · exact .inl (htimed.2.1 hf)
    · exact .inr ⟨hf, htimed.2.2 hf⟩
  rcases overTimed_cases fs tick with ⟨-, ho⟩ | ⟨i, f, hc, hp, ho⟩ | ⟨i, f, pe, hc, hp, ho⟩
  · rw [ho]; exact over true ho rfl
  · exfalso
    rcases h.cur with hn | ⟨k, ⟨i', f', hc', hb'⟩, -, -, -⟩
    · rw [hc] at hn; cases hn
    · rw [hc] at hc'; cases hc'
      have : f.periodEnd = some _ := congrArg Prod.snd hb'
      rw [hp] at this; cases this
  · rw [ho]
    dsimp only
    split_ifs with hle
    · exact over _ ho hle
    · refine ⟨?_, .inl rfl, fun _ => rfl, fun _ hall => absurd (hall i f pe hc hp) (by simpa using hle)⟩
      obtain ⟨-, b2, b3, b4⟩ := feedLast_bounds fs c tick
      refine ⟨b3.trans h.unit, b4.trans h.qty, .inr ?_⟩
      rcases h.cur with hn | ⟨k, hcur, k1⟩
      · rw [hc] at hn; cases hn
      · exact ⟨k, feedLast_cur hcur c tick, k1⟩

/-! ## Negative quantities -/

theorem fmod_neg_bounds (x : ℤ) {q : ℤ} (hq : q < 0) : q < x.fmod q ∧ x.fmod q ≤ 0 := by
  have h := Int.neg_fmod_neg (-x) (-q)
  simp only [neg_neg] at h
  have h1 := Int.fmod_nonneg_of_pos (-x) (b := -q) (by omega)
  have h2 := Int.fmod_lt_of_pos (-x) (b := -q) (by omega)
  omega

theorem midnight_first (y m : ℤ) (h1 : 1 ≤ m) (h2 : m ≤ 12) : midnight y m 1 = mfirst (12 * y + (m - 1)) * dayUs := by
  unfold midnight mfirst
  congr 2 <;> omega

/-- With a negative quantity a frame ends before the unit of time of its tick begins. -/
theorem frameStart_neg {u : Unit'} (hu : u ≠ .tick) {q w s : ℤ} (hq : q < 0) (h : frameStart u q w = .ok s) :
    grid u 1 (gidx u 1 w) ≤ s ∧ shiftUnit u q s < grid u 1 (gidx u 1 w) := by
  cases u with
  | tick => exact absurd rfl hu
  | second =>
    simp only [frameStart, if_neg hq.ne, Except.ok.injEq] at h
    have hb := fmod_neg_bounds (secondOf w) hq
    rw [(secs_eq w).2] at h
    simp only [grid, gidx, shiftUnit, secUs, Int.ediv_one] at h hb ⊢
    omega
  | minute =>
    simp only [frameStart, if_neg hq.ne, Except.ok.injEq] at h
    have hb := fmod_neg_bounds (minuteOf w) hq
    have := (mins_eq w).2
    simp only [grid, gidx, shiftUnit, minUs, secUs, Int.ediv_one] at h hb this ⊢
    omega
  | hour =>
    simp only [frameStart, if_neg hq.ne, Except.ok.injEq] at h
    have hb := fmod_neg_bounds (hourOf w) hq
    have := (hours_eq w).2
    simp only [grid, gidx, shiftUnit, hourUs, minUs, secUs, Int.ediv_one] at h hb this ⊢
    omega
  | day =>
    simp only [frameStart, if_neg hq.ne, Except.ok.injEq] at h
    have hb := fmod_neg_bounds (weekdayOf w) hq
    have := days_eq w
    simp only [grid, gidx, shiftUnit, ordOf, dayUs, hourUs, minUs, secUs, Int.ediv_one] at h hb this ⊢
    omega
  | week =>
    have hs := frameStart_grid (u := .week) (q := 1) (w := w) ⟨by decide, by decide⟩ trivial
    have e : frameStart .week q w = frameStart .week 1 w := rfl
    rw [e, hs] at h
    cases h
    exact ⟨le_rfl, shiftUnit_lt (by decide) hq _⟩
  | month =>
    simp only [frameStart, if_neg hq.ne, replaceFirst] at h
    have hb := fmod_neg_bounds (monthOf w - 1) hq
    split_ifs at h with hr
    cases h
    have e : grid .month 1 (gidx .month 1 w) = mfirst (12 * yearOf w + (monthOf w - 1)) * dayUs := by
      simp only [grid, gidx, Int.ediv_one, one_mul]; rfl
    rw [midnight_first _ _ (by omega) (by omega), e]
    simp only [shiftUnit]
    rw [shiftMonths_first]
    exact ⟨mul_le_mul_of_nonneg_right (mfirst_strictMono.monotone (by omega)) (by decide),
      mul_lt_mul_of_pos_right (mfirst_strictMono (by omega)) (by decide)⟩
  | year =>
    simp only [frameStart, if_neg hq.ne, replaceFirst] at h
    have hb := fmod_neg_bounds (yearOf w) hq
    split_ifs at h with hr
    cases h
    have e : grid .year 1 (gidx .year 1 w) = mfirst (12 * yearOf w) * dayUs := by
      simp only [grid, gidx, Int.ediv_one, one_mul]; rw [yearOf_midx]
    rw [midnight_first _ _ (by omega) (by omega), e]
    simp only [shiftUnit]
    rw [shiftMonths_first]
    exact ⟨mul_le_mul_of_nonneg_right (mfirst_strictMono.monotone (by omega)) (by decide),
      mul_lt_mul_of_pos_right (mfirst_strictMono (by omega)) (by decide)⟩

theorem tiles_one {u : Unit'} (hu : u ≠ .tick) : Tiles u 1 := by
  refine ⟨by decide, ?_⟩
  cases u with
  | tick => exact hu rfl
  | year => trivial
  | _ => exact one_dvd _

/-- What holds with a negative quantity when no tick is after `B`: a frame ended before the unit of time of `B` began. -/
structure NInv (u : Unit') (q B : ℤ) (fs : FrameSet) : Prop where
  unit : fs.unit = u
  qty : fs.qty = q
  cur : (fs.heap = [] ∧ fs.current = none) ∨ ∃ a pe, Cur fs (a, some pe) ∧ pe < grid u 1 (gidx u 1 B)

theorem NInv.create {u : Unit'} {q B : ℤ} {fs : FrameSet} (h : NInv u q B fs) (c : Ctx) (tick : Tick) {ps pe : ℤ}
    (hp : pe < grid u 1 (gidx u 1 B)) : NInv u q B (fs.feedCreate c tick ps (some pe)).1 := by
  rcases feedCreate_cur fs c tick ps (some pe) with ⟨e1, -⟩ | ⟨e1, e2, e3, -⟩
  · rw [e1]; exact h
  · exact ⟨e2.trans h.unit, e3.trans h.qty, .inr ⟨ps, pe, e1, hp⟩⟩

/-- The loop keeps it, and cannot end before the beginning of the new frame if it starts before it. -/
theorem NInv.fill {u : Unit'} {q B : ℤ} {fs : FrameSet} (h : NInv u q B fs) (hu : u ≠ .tick) (hq : q < 0) (inst : ℤ → ℤ) {c : Ctx}
    (hz : ∀ x, c.zone.resolve x = x) (ps : ℤ) (n : ℕ) :
    NInv u q B (calFill inst c ps n fs).1 := by
  refine calFill_induct inst c ps (NInv u q B) ?_ n fs h
  intro s i f pe e hs hc hp hlt he
  refine hs.create c f.last ?_
  obtain ⟨-, c2⟩ := calEnd_ok he
  rw [hz, hs.unit, hs.qty] at c2
  have := shiftUnit_lt hu hq pe
  rcases hs.cur with ⟨-, hn⟩ | ⟨a, pe', ⟨i', f', hc', hb'⟩, hlt'⟩
  · rw [hc] at hn; cases hn
  · rw [hc] at hc'; cases hc'
    have : f.periodEnd = some pe' := congrArg Prod.snd hb'
    rw [hp] at this
    cases this
    omega

theorem calFill_raises {inst : ℤ → ℤ} {c : Ctx} (hz : ∀ x, c.zone.resolve x = x) (ps : ℤ) {u : Unit'} {q : ℤ} (hu : u ≠ .tick) (hq : q < 0) (n : ℕ) :
    ∀ fs : FrameSet, fs.unit = u → fs.qty = q → (∃ a pe, Cur fs (a, some pe) ∧ pe < ps) →
    ∃ e, (calFill inst c ps n fs).2 = some e ∧ (1 ≤ fs.maxFrames → fs.indicators = [] → CalErr e ∨ e = .diverge) := by
  induction n with
  | zero =>
    intro fs _ _ ⟨a, pe, ⟨i, f, hc, hb⟩, hlt⟩
    have hp : f.periodEnd = some pe := congrArg Prod.snd hb
    unfold calFill
    simp only [hc, hp, if_pos hlt]
    exact ⟨_, rfl, fun _ _ => .inr rfl⟩
  | succ n ih =>
    intro fs h1 h2 ⟨a, pe, ⟨i, f, hc, hb⟩, hlt⟩
    have hp : f.periodEnd = some pe := congrArg Prod.snd hb
    unfold calFill
    simp only [hc, hp, if_pos hlt]
    rcases he : calEnd c.zone inst fs.unit fs.qty pe with err | e
    · exact ⟨err, rfl, fun _ _ => .inl (calEnd_error he)⟩
    · dsimp only
      obtain ⟨-, c2⟩ := calEnd_ok he
      rw [hz, h1, h2] at c2
      have hlt2 := shiftUnit_lt hu hq pe
      have hcur := feedCreate_cur fs c f.last pe (some e)
      have hmax : (fs.feedCreate c f.last pe (some e)).1.maxFrames = fs.maxFrames ∧
          (fs.feedCreate c f.last pe (some e)).1.indicators = fs.indicators := by
        unfold FrameSet.feedCreate
        dsimp only
        split <;> exact ⟨rfl, rfl⟩
      have hnone : 1 ≤ fs.maxFrames → fs.indicators = [] → (fs.feedCreate c f.last pe (some e)).2 = none := by
        intro hm hi
        rcases feedCreate_cases hm c f.last pe (some e) with ⟨x, hx⟩ | ⟨fs', -, hx⟩
        · exfalso
          rw [FrameSet.feedCreate, hi] at hx
          have hne : (upsert fs.heap fs.heap.length f.last c.marketOpen [] (Frame.fresh f.last pe (some e) fs.frames.getLast?)) =
            .ok (Frame.fresh f.last pe (some e) fs.frames.getLast?) := rfl
          rw [hne] at hx
          have l1 := congrArg (fun r => r.1.heap.length) hx
          have l2 := congrArg List.length (feedClean_bounds fs.maxFrames (fs.frames ++ [fs.heap.length])
            (linkNext fs.heap fs.frames.getLast? fs.heap.length ++ [Frame.fresh f.last pe (some e) fs.frames.getLast?]))
          have l3 := congrArg List.length (linkNext_bounds fs.heap fs.frames.getLast? fs.heap.length)
          simp only [List.length_map, List.length_append, List.length_singleton] at l1 l2 l3
          omega
        · rw [hx]
      rcases hr : fs.feedCreate c f.last pe (some e) with ⟨fs', _ | err⟩ <;> rw [hr] at hcur hmax hnone
      · dsimp only
        rcases hcur with ⟨-, x, hx⟩ | ⟨hcur, hu', hq', -⟩
        · cases hx
        · obtain ⟨x, x1, x2⟩ := ih fs' (hu'.trans h1) (hq'.trans h2) ⟨pe, e, hcur, by omega⟩
          exact ⟨x, x1, fun hm hi => x2 (by rw [hmax.1]; exact hm) (by rw [hmax.2]; exact hi)⟩
      · refine ⟨err, rfl, fun hm hi => ?_⟩
        have := hnone hm hi
        cases this

end
end Estrade
