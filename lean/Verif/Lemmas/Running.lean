import Verif.Lemmas.TickSet

/-!
# Success, termination and divergence of frame set operations
-/

set_option autoImplicit false
set_option linter.unusedSectionVars false

namespace Estrade

/-! ## Shifting a wall clock by months -/

theorem ymd2ord_midx (i d : ℤ) : ymd2ord (i / 12) (i % 12 + 1) d = mfirst i + (d - 1) := by
  unfold mfirst ymd2ord; ring

theorem shiftMonths_eq (w n : ℤ) : ∃ d, 1 ≤ d ∧ d ≤ daysInMonth (isLeap ((midx (ordOf w) + n) / 12))
      ((midx (ordOf w) + n) % 12 + 1) ∧
    shiftMonths w n = (mfirst (midx (ordOf w) + n) + (d - 1)) * dayUs + timeOf w := by
  obtain ⟨⟨-, -, h3, -⟩, -⟩ := ord2ymd_spec (ordOf w)
  have hi : yearOf w * 12 + (monthOf w - 1) + n = midx (ordOf w) + n := by
    unfold midx yearOf monthOf; ring
  unfold shiftMonths
  simp only [hi]
  refine ⟨_, ?_, min_le_right (dayOf w) _, ?_⟩
  · exact le_min h3 (by have := daysInMonth_pos (isLeap ((midx (ordOf w) + n) / 12))
                          ((midx (ordOf w) + n) % 12 + 1); omega)
  · unfold midnight; rw [ymd2ord_midx]

theorem wall_eq (w : ℤ) : w = ordOf w * dayUs + timeOf w := by
  have := Int.mul_ediv_add_emod w dayUs
  unfold ordOf timeOf
  rw [mul_comm]; exact this.symm

theorem timeOf_bounds (w : ℤ) : 0 ≤ timeOf w ∧ timeOf w < dayUs :=
  ⟨Int.emod_nonneg _ (by decide), Int.emod_lt_of_pos _ (by decide)⟩

theorem shiftMonths_gt (w : ℤ) {n : ℤ} (hn : 0 < n) : w < shiftMonths w n := by
  obtain ⟨d, h1, -, h3⟩ := shiftMonths_eq w n
  obtain ⟨-, g2, -⟩ := midx_spec (ordOf w)
  have hm : mfirst (midx (ordOf w) + 1) ≤ mfirst (midx (ordOf w) + n) :=
    mfirst_strictMono.monotone (by omega)
  rw [h3]
  conv_lhs => rw [wall_eq w]
  have hd : (0 : ℤ) < dayUs := by decide
  have : ordOf w < mfirst (midx (ordOf w) + n) + (d - 1) := by omega
  nlinarith

theorem shiftMonths_lt (w : ℤ) {n : ℤ} (hn : n < 0) : shiftMonths w n < w := by
  obtain ⟨d, -, h2, h3⟩ := shiftMonths_eq w n
  obtain ⟨g1, -, -⟩ := midx_spec (ordOf w)
  have hm : mfirst (midx (ordOf w) + n + 1) ≤ mfirst (midx (ordOf w)) :=
    mfirst_strictMono.monotone (by omega)
  rw [mfirst_succ] at hm
  rw [h3]
  conv_rhs => rw [wall_eq w]
  have hd : (0 : ℤ) < dayUs := by decide
  have : mfirst (midx (ordOf w) + n) + (d - 1) < ordOf w := by omega
  nlinarith

theorem shiftUnit_gt {u : Unit'} (hu : u ≠ .tick) {q : ℤ} (hq : 0 < q) (w : ℤ) : w < shiftUnit u q w := by
  cases u with
  | tick => exact absurd rfl hu
  | month => exact shiftMonths_gt w hq
  | year => exact shiftMonths_gt w (by omega)
  | _ => simp only [shiftUnit, dayUs, hourUs, minUs, secUs]; omega

theorem shiftUnit_lt {u : Unit'} (hu : u ≠ .tick) {q : ℤ} (hq : q < 0) (w : ℤ) : shiftUnit u q w < w := by
  cases u with
  | tick => exact absurd rfl hu
  | month => exact shiftMonths_lt w hq
  | year => exact shiftMonths_lt w (by omega)
  | _ => simp only [shiftUnit, dayUs, hourUs, minUs, secUs]; omega

theorem frameEnd_gt {z : Zone} (hz : ∀ x, x ≤ z.resolve x) {u : Unit'} (hu : u ≠ .tick) {q : ℤ}
    (hq : 0 < q) (w : ℤ) : w < frameEnd z u q w := by
  unfold frameEnd
  rw [if_neg hu]
  exact (shiftUnit_gt hu hq w).trans_le (hz _)

theorem frameEnd_lt {z : Zone} (hz : ∀ x, z.resolve x = x) {u : Unit'} (hu : u ≠ .tick) {q : ℤ}
    (hq : q < 0) (w : ℤ) : frameEnd z u q w < w := by
  unfold frameEnd
  rw [if_neg hu, hz]
  exact shiftUnit_lt hu hq w

variable [Arith]

/-! ## Eviction never fails for a positive limit -/

theorem cleanLoop_ok {max : ℤ} (hm : 1 ≤ max) (l : List ℕ) :
    ∀ heap : List Frame, ∃ r, cleanLoop max heap l = .ok r := by
  induction l with
  | nil => intro heap; exact ⟨_, by simp only [cleanLoop]; rw [if_neg (by omega)]⟩
  | cons a l ih =>
    intro heap
    cases l with
    | nil => exact ⟨_, by simp only [cleanLoop]; rw [if_neg (by omega)]⟩
    | cons b r =>
      simp only [cleanLoop]
      split_ifs
      · exact ih _
      · exact ⟨_, rfl⟩

theorem createFrame_ok {fs : FrameSet} {c : Ctx} {t : Tick} {ps : ℤ} {pe : Option ℤ} {f : Frame}
    (hm : 1 ≤ fs.maxFrames)
    (hu : upsert fs.heap fs.heap.length t c.marketOpen fs.indicators
      (Frame.fresh t ps pe fs.frames.getLast?) = .ok f) : ∃ fs', fs.createFrame c t ps pe = .ok fs' := by
  unfold FrameSet.createFrame
  simp only [bind, Except.bind, hu]
  obtain ⟨r, hr⟩ := cleanLoop_ok hm (fs.frames ++ [fs.heap.length])
    (linkNext fs.heap fs.frames.getLast? fs.heap.length ++ [f])
  rw [hr]
  exact ⟨_, rfl⟩

/-- Conversely the exception of a creation is one of the indicators'. -/
theorem createFrame_err {fs : FrameSet} {c : Ctx} {t : Tick} {ps : ℤ} {pe : Option ℤ} {e : PyErr}
    (hm : 1 ≤ fs.maxFrames) (h : fs.createFrame c t ps pe = .error e) :
    upsert fs.heap fs.heap.length t c.marketOpen fs.indicators
      (Frame.fresh t ps pe fs.frames.getLast?) = .error e := by
  rcases hu : upsert fs.heap fs.heap.length t c.marketOpen fs.indicators
      (Frame.fresh t ps pe fs.frames.getLast?) with e' | f
  · unfold FrameSet.createFrame at h
    simp only [bind, Except.bind, hu] at h
    cases h; rfl
  · obtain ⟨fs', h'⟩ := createFrame_ok hm hu
    rw [h'] at h; cases h

theorem createFrame_noind {fs : FrameSet} (hm : 1 ≤ fs.maxFrames) (hi : fs.indicators = []) (c : Ctx)
    (t : Tick) (ps : ℤ) (pe : Option ℤ) : ∃ fs', fs.createFrame c t ps pe = .ok fs' :=
  createFrame_ok hm (f := Frame.fresh t ps pe fs.frames.getLast?) (by rw [hi]; rfl)

theorem addToLast_noind {fs : FrameSet} (hi : fs.indicators = []) (c : Ctx) (t : Tick) :
    ∃ fs', fs.addToLast c t = .ok fs' := by
  unfold FrameSet.addToLast
  split
  · exact ⟨_, rfl⟩
  · rw [hi]; exact ⟨_, rfl⟩

/-! ## The gap filling loop -/

/-- More fuel does not change the outcome of a loop that has ended. -/
theorem fillLoop_mono {c : Ctx} {ps : ℤ} (n k : ℕ) : ∀ fs : FrameSet,
    fillLoop c ps n fs ≠ .error .diverge → fillLoop c ps (n + k) fs = fillLoop c ps n fs := by
  induction n with
  | zero =>
    intro fs h
    rw [fillLoop] at h
    rw [fillLoop, fillLoop]
    rcases hc : fs.current with _ | ⟨i, f⟩
    · simp only
    · simp only [hc] at h ⊢
      rcases hpe : f.periodEnd with _ | pe
      · simp only
      · simp only [hpe] at h ⊢
        by_cases hp : pe < ps
        · rw [if_pos hp] at h; exact absurd rfl h
        · rw [if_neg hp, if_neg hp]
  | succ n ih =>
    intro fs h
    rw [show n + 1 + k = (n + k) + 1 by omega]
    rw [fillLoop] at h
    rw [fillLoop, fillLoop]
    rcases hc : fs.current with _ | ⟨i, f⟩
    · simp only
    · simp only [hc] at h ⊢
      rcases hpe : f.periodEnd with _ | pe
      · simp only
      · simp only [hpe] at h ⊢
        by_cases hp : pe < ps
        · rw [if_pos hp] at h ⊢
          rw [if_pos hp]
          simp only [bind, Except.bind] at h ⊢
          rcases hcr : fs.createFrame c f.last pe (some (frameEnd c.zone fs.unit fs.qty pe)) with e | fs1
          · rfl
          · rw [hcr] at h
            exact ih fs1 h
        · rw [if_neg hp, if_neg hp]

theorem fillLoop_terminates {u : Unit'} {q m : ℤ} (hm : 1 ≤ m) {c : Ctx} {ps : ℤ}
    (hend : ∀ x, x < frameEnd c.zone u q x) (fuel : ℕ) :
    ∀ (fs : FrameSet) (A : List AF), Built u q m fs A →
    (∀ i f pe, fs.current = some (i, f) → f.periodEnd = some pe → ps - pe ≤ fuel) →
    fillLoop c ps fuel fs ≠ .error .diverge := by
  induction fuel with
  | zero =>
    intro fs A hB hf
    rw [fillLoop]
    rcases hc : fs.current with _ | ⟨i, f⟩
    · simp
    · rcases hpe : f.periodEnd with _ | pe
      · simp [hpe]
      · simp only [hpe]
        rw [if_neg (by have := hf i f pe hc hpe; omega)]; simp
  | succ n ih =>
    intro fs A hB hf
    rw [fillLoop]
    rcases hc : fs.current with _ | ⟨i, f⟩
    · simp
    · rcases hpe : f.periodEnd with _ | pe
      · simp [hpe]
      · simp only [hpe]
        split_ifs
        · simp only [bind, Except.bind]
          rcases hcr : fs.createFrame c f.last pe (some (frameEnd c.zone fs.unit fs.qty pe)) with e | fs1
          · intro h
            simp only [Except.error.injEq] at h
            exact createFrame_nd (by rw [hcr, h])
          · have hB1 := Built.create c _ _ _ hB hcr
            refine ih fs1 _ hB1 ?_
            intro i' f' pe' hc' hpe'
            obtain ⟨g, hg, -, hco⟩ := (hB1.rep hm).current (by rw [hB1.fields.2.2]; exact hm)
            rw [hc'] at hg
            cases hg
            have := hco.stop
            rw [hpe'] at this
            simp only [Option.some.injEq] at this
            rw [hB.fields.1, hB.fields.2.1] at this
            have h1 := hend pe
            have h2 := hf i f pe hc hpe
            push_cast at h2
            omega
        · simp

theorem fillLoop_diverges {u : Unit'} {q m : ℤ} (hm : 1 ≤ m) {c : Ctx} {ps : ℤ}
    (hend : ∀ x, frameEnd c.zone u q x < x) (fuel : ℕ) :
    ∀ (fs : FrameSet) (B : List AF) (a : AF) (pe : ℤ), Built u q m fs (B ++ [a]) → fs.indicators = [] →
    a.stop = some pe → pe < ps → fillLoop c ps fuel fs = .error .diverge := by
  induction fuel with
  | zero =>
    intro fs B a pe hB hi hs hlt
    obtain ⟨f, hc, -, hco⟩ := (hB.rep hm).current (by rw [hB.fields.2.2]; exact hm)
    have hs' := hco.stop
    rw [hs] at hs'
    rw [fillLoop]
    simp only [hc, hs', if_pos hlt]
  | succ n ih =>
    intro fs B a pe hB hi hs hlt
    obtain ⟨f, hc, -, hco⟩ := (hB.rep hm).current (by rw [hB.fields.2.2]; exact hm)
    have hs' := hco.stop
    rw [hs] at hs'
    rw [fillLoop]
    simp only [hc, hs', if_pos hlt, bind, Except.bind]
    obtain ⟨fs1, h1⟩ := createFrame_noind (fs := fs) (by rw [hB.fields.2.2]; exact hm) hi c f.last pe
      (some (frameEnd c.zone fs.unit fs.qty pe))
    rw [h1]
    have hB1 := Built.create c _ _ _ hB h1
    refine ih fs1 _ _ _ hB1 (by rw [createFrame_fields h1]; exact hi) rfl ?_
    rw [hB.fields.1, hB.fields.2.1]
    exact (hend pe).trans hlt

theorem addToLast_nd {fs : FrameSet} {c : Ctx} {t : Tick} : fs.addToLast c t ≠ .error .diverge := by
  unfold FrameSet.addToLast
  split
  · simp
  · exact nd_bind upsert_nd fun _ => by simp

theorem frameStart_nd {u : Unit'} {q w : ℤ} : frameStart u q w ≠ .error .diverge := by
  unfold frameStart replaceFirst
  cases u <;> simp only <;> (try split_ifs) <;> simp

theorem onNewTick_terminates {u : Unit'} {q m : ℤ} (hm : 1 ≤ m) (hu : u ≠ .tick) (hq : 0 < q) {c : Ctx}
    (hz : ∀ x, x ≤ c.zone.resolve x) {t : Tick} {fs : FrameSet} {A : List AF} (hB : Built u q m fs A) :
    fs.onNewTick c t ≠ .error .diverge := by
  unfold FrameSet.onNewTick
  rw [if_neg (by rw [hB.fields.1]; exact hu)]
  refine nd_bind ?_ ?_
  · unfold FrameSet.overTimed
    split
    · simp
    · split <;> simp
  · intro b
    split_ifs
    · unfold FrameSet.createTimed
      rcases hps : frameStart fs.unit fs.qty t.dt.wall with e | ps
      · intro h
        cases h
        exact frameStart_nd hps
      · simp only [bind, Except.bind]
        rcases hfl : fillLoop c ps (fillFuel fs ps) fs with e | fs1
        · intro h
          cases h
          refine fillLoop_terminates hm (frameEnd_gt hz hu hq) _ fs A hB ?_ hfl
          intro i f pe hc hpe
          unfold fillFuel
          simp only [hc, hpe]
          omega
        · exact createFrame_nd
    · exact addToLast_nd

end Estrade
