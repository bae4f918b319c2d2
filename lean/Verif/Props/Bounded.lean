import Verif.Lemmas.Bounded

/-!
# C104: the calendar ends (estrade/mixins/timeframe.py, estrade/graph/frame_set.py, estrade/epic.py)
-/

set_option linter.style.haveILetI false
set_option linter.unusedSectionVars false
set_option autoImplicit false

namespace Estrade

/-- Spec: a datetime of the years 1 to 9999. -/
def Spec.InCalendar (w : ℤ) : Prop := 1 ≤ yearOf w ∧ yearOf w ≤ 9999

/-- Spec: the period of the timeframe that contains wall clock `w` fits in the calendar, its end also as an instant. -/
def Spec.FitsIn (u : Unit') (q off w : ℤ) : Prop :=
  ∃ a b, Spec.Aligned u q a ∧ Spec.Aligned u q b ∧ a ≤ w ∧ w < b ∧ (∀ x, a < x → x < b → ¬ Spec.Aligned u q x) ∧
    Spec.InCalendar a ∧ Spec.InCalendar b ∧ Spec.InCalendar (b - off)

/-- Spec: a new frame set of unit `u` and quantity `q`, accepted by the constructor. -/
structure Spec.NewFrames (u : Unit') (q : ℤ) (fs : FrameSet) : Prop where
  unit : fs.unit = u
  qty : fs.qty = q
  heap : fs.heap = []
  frames : fs.frames = []

/-- Spec: the ticks are datetimes of the calendar. -/
def Spec.TicksIn (l : List CalCmd) : Prop := ∀ e t, CalCmd.tick e t ∈ l → Spec.InCalendar t.dt.wall

/-- Spec: the exceptions for datetimes out of range, OverflowError and ValueError. -/
def Spec.RangeError (e : PyErr) : Prop := e = .overflow ∨ e = .value

section
variable [Arith]

/-- Spec: a call in a calendar without end. -/
def Spec.endlessExec (z : Zone) (fs : FrameSet) : CalCmd → FrameSet × Option PyErr
  | .tick e t => fs.feed ⟨z, e⟩ t
  | .indicator ind => fs.addIndicator ind

/-- Spec: calls in a calendar without end. -/
def Spec.endlessRun (z : Zone) (fs : FrameSet) (l : List CalCmd) : FrameSet := l.foldl (fun s x => (Spec.endlessExec z s x).1) fs

/-- A tick of UTC. -/
def Demo.calTick (w : ℤ) : CalCmd := .tick none ⟨⟨w, w, 0⟩, 10, 11⟩

/-- A new frame set. -/
def Demo.calSet (u : Unit') (q : ℤ) : FrameSet := ⟨u, q, 1000, [], [], []⟩

/-! ## Bounds -/

theorem AllCal.run {z : Zone} {inst : ℤ → ℤ} (l : List CalCmd) : ∀ {fs : FrameSet}, AllCal fs → Spec.TicksIn l →
    AllCal (fs.calRun z inst l) := by
  induction l with
  | nil => intro fs h _; exact h
  | cons x l ih =>
    intro fs h hl
    refine ih (fs := (fs.calExec z inst x).1) ?_ (fun e t hm => hl e t (List.mem_cons_of_mem _ hm))
    rcases x with ⟨e, t⟩ | ind
    · exact h.feed inst _ t ((inCal_iff _).mpr (hl e t (List.mem_cons_self ..)))
    · intro b hb
      rw [show ((fs.calExec z inst (.indicator ind)).1).heap = fs.heap from (addIndicator_kept fs ind).1] at hb
      exact h b hb

theorem Spec.NewFrames.allCal {u : Unit'} {q : ℤ} {fs : FrameSet} (h : Spec.NewFrames u q fs) : AllCal fs := by
  intro b hb
  rw [h.heap] at hb
  cases hb

/-- C104: whatever unit, quantity (negative ones included) and timezone, after any calls, exceptions included: the bounds of every frame ever
made are datetimes of the calendar. -/
theorem C104_bounds (z : Zone) (inst : ℤ → ℤ) (u : Unit') (q : ℤ) (fs : FrameSet) (hfs : Spec.NewFrames u q fs) (l : List CalCmd)
    (hl : Spec.TicksIn l) (i : ℕ) (f : Frame) (hf : (fs.calRun z inst l).heap[i]? = some f) :
    Spec.InCalendar f.periodStart ∧ ∀ e, f.periodEnd = some e → Spec.InCalendar e := by
  obtain ⟨h1, h2⟩ := (hfs.allCal.run l hl : AllCal (fs.calRun z inst l)) f.bounds (List.mem_map_of_mem (List.mem_of_getElem? hf))
  exact ⟨(inCal_iff _).mp h1, fun e he => (inCal_iff _).mp (h2 e he)⟩

/-- The hypotheses of `C104_bounds`: frames of -1 days in Paris, ticks on the first and last days of the calendar. -/
example : Spec.NewFrames .day (-1) (Demo.calSet .day (-1)) ∧
    Spec.TicksIn [Demo.calTick (midnight 1 1 1), Demo.calTick (midnight 9999 12 31 + 5 * hourUs)] := by
  refine ⟨⟨rfl, rfl, rfl, rfl⟩, ?_⟩
  intro e t h
  rcases List.mem_cons.mp h with h | h
  · cases h
    unfold Spec.InCalendar
    decide +kernel
  · cases List.mem_singleton.mp h
    unfold Spec.InCalendar
    decide +kernel

/-! ## Frames that fit -/

theorem fitsG_iff {u : Unit'} {q : ℤ} (hT : Tiles u q) (off w : ℤ) : FitsG u q off (gidx u q w) ↔ Spec.FitsIn u q off w := by
  have hmono := grid_strictMono hT
  obtain ⟨g1, g2⟩ := gidx_spec hT w
  constructor
  · rintro ⟨h1, h2, h3⟩
    refine ⟨_, _, (aligned_iff_grid hT _).mpr ⟨_, rfl⟩, (aligned_iff_grid hT _).mpr ⟨_, rfl⟩, g1, g2, ?_, (inCal_iff _).mp h1, (inCal_iff _).mp h2,
      (inCal_iff _).mp h3⟩
    intro x hx1 hx2 hx
    obtain ⟨k, rfl⟩ := (aligned_iff_grid hT _).mp hx
    have := hmono.lt_iff_lt.mp hx1
    have := hmono.lt_iff_lt.mp hx2
    omega
  · rintro ⟨a, b, ha, hb, h1, h2, h3, h4, h5, h6⟩
    obtain ⟨i, rfl⟩ := (aligned_iff_grid hT _).mp ha
    obtain ⟨j, rfl⟩ := (aligned_iff_grid hT _).mp hb
    have hij : i < j := hmono.lt_iff_lt.mp (lt_of_le_of_lt h1 h2)
    have hj : j = i + 1 := by
      by_contra hne
      refine h3 (grid u q (i + 1)) (hmono (by omega)) (hmono (by omega)) ((aligned_iff_grid hT _).mpr ⟨_, rfl⟩)
    subst hj
    have := gidx_unique hT h1 h2
    rw [this]
    exact ⟨(inCal_iff _).mpr h4, (inCal_iff _).mpr h5, (inCal_iff _).mpr h6⟩

theorem KInv.exec {z : Zone} {u : Unit'} {q off : ℤ} {fs : FrameSet} (h : KInv u q off fs) (hT : Tiles u q) (hz : z.Fixed off) (x : CalCmd)
    (hx : Spec.TicksIn [x]) : KInv u q off (fs.calExec z (fun w => w - off) x).1 := by
  rcases x with ⟨e, t⟩ | ind
  · exact (h.feed hT (c := ⟨z, e⟩) hz t ((inCal_iff _).mpr (hx e t (List.mem_cons_self ..)))).1
  · obtain ⟨-, -, h3, h4⟩ := addIndicator_kept fs ind
    refine ⟨h3.trans h.unit, h4.trans h.qty, ?_⟩
    have hc := addIndicator_current fs ind
    rcases h.cur with hn | ⟨k, ⟨i, f, k1, k2⟩, k3⟩
    · exact .inl (hc.trans hn)
    · exact .inr ⟨k, ⟨i, f, hc.trans k1, k2⟩, k3⟩

theorem KInv.run {z : Zone} {u : Unit'} {q off : ℤ} (hT : Tiles u q) (hz : z.Fixed off) (l : List CalCmd) : ∀ {fs : FrameSet},
    KInv u q off fs → Spec.TicksIn l → KInv u q off (fs.calRun z (fun w => w - off) l) := by
  induction l with
  | nil => intro fs h _; exact h
  | cons x l ih =>
    intro fs h hl
    exact ih (h.exec hT hz x (fun e t hm => hl e t (by rw [List.mem_singleton.mp hm]; exact List.mem_cons_self ..)))
      (fun e t hm => hl e t (List.mem_cons_of_mem _ hm))

theorem Spec.NewFrames.kinv {u : Unit'} {q : ℤ} {fs : FrameSet} (h : Spec.NewFrames u q fs) (off : ℤ) : KInv u q off fs := by
  refine ⟨h.unit, h.qty, .inl ?_⟩
  unfold FrameSet.current
  rw [h.frames]
  rfl

/-- C104: zones of constant offset, quantities that the constructor accepts, after any calls: a tick whose frame fits in the calendar has the
effect it would have if the calendar had no end, on frames, indicators and exceptions. -/
theorem C104_fits (z : Zone) (off : ℤ) (hz : z.Fixed off) (u : Unit') (q : ℤ) (ha : Spec.Accepted u q) (fs : FrameSet)
    (hfs : Spec.NewFrames u q fs) (l : List CalCmd) (hl : Spec.TicksIn l) (e : Option (Bool × ℤ)) (t : Tick) (ht : Spec.InCalendar t.dt.wall)
    (hf : Spec.FitsIn u q off t.dt.wall) :
    (fs.calRun z (fun w => w - off) l).calExec z (fun w => w - off) (.tick e t) =
      Spec.endlessExec z (fs.calRun z (fun w => w - off) l) (.tick e t) := by
  have hT := accepted_tiles ha
  exact ((hfs.kinv off).run hT hz l hl |>.feed hT (c := ⟨z, e⟩) hz t ((inCal_iff _).mpr ht)).2.2.1 ((fitsG_iff hT off _).mpr hf)

/-- The frames of 30 December 9999 and of 2 January of year 1 fit; that of 31 December 9999 does not, nor, for a zone west of UTC, that of the
day before. -/
example : Spec.FitsIn .day 1 0 (midnight 9999 12 30 + 5 * hourUs) ∧ Spec.FitsIn .day 1 0 (midnight 1 1 2) ∧
    ¬ Spec.FitsIn .day 1 0 (midnight 9999 12 31 + 5 * hourUs) ∧ Spec.FitsIn .hour 1 (-3 * hourUs) (midnight 9999 12 31 + 19 * hourUs) ∧
    ¬ Spec.FitsIn .hour 1 (-3 * hourUs) (midnight 9999 12 31 + 20 * hourUs) := by
  have hd : Tiles .day 1 := accepted_tiles ⟨rfl, by decide, by decide⟩
  have hh : Tiles .hour 1 := accepted_tiles ⟨rfl, by decide, by decide⟩
  rw [← fitsG_iff hd, ← fitsG_iff hd, ← fitsG_iff hd, ← fitsG_iff hh, ← fitsG_iff hh]
  unfold FitsG
  decide +kernel

/-- C104: a tick whose frame does not fit in the calendar is refused with an OverflowError or a ValueError if it is not before the end of the
current frame, or if there is none, and the frame set is as it was: no frame has been made, gap frames included. -/
theorem C104_refused (z : Zone) (off : ℤ) (hz : z.Fixed off) (u : Unit') (q : ℤ) (ha : Spec.Accepted u q) (fs : FrameSet)
    (hfs : Spec.NewFrames u q fs) (l : List CalCmd) (hl : Spec.TicksIn l) (e : Option (Bool × ℤ)) (t : Tick) (ht : Spec.InCalendar t.dt.wall)
    (hf : ¬ Spec.FitsIn u q off t.dt.wall)
    (hn : ∀ f x, (fs.calRun z (fun w => w - off) l).getItem (-1) = some f → f.periodEnd = some x → x ≤ t.dt.wall) :
    ∃ err, Spec.RangeError err ∧
      (fs.calRun z (fun w => w - off) l).calExec z (fun w => w - off) (.tick e t) = (fs.calRun z (fun w => w - off) l, some err) := by
  have hT := accepted_tiles ha
  refine ((hfs.kinv off).run hT hz l hl |>.feed hT (c := ⟨z, e⟩) hz t ((inCal_iff _).mpr ht)).2.2.2 (fun h => hf ((fitsG_iff hT off _).mp h)) ?_
  intro i f pe hc hp
  refine hn f pe ?_ hp
  obtain ⟨h1, h2⟩ := current_heap hc
  unfold FrameSet.getItem pyGet
  rw [List.getLast?_eq_getElem?] at h1
  have hlt := (List.getElem?_eq_some_iff.mp h1).1
  rw [if_neg (by decide), if_pos (by change 1 ≤ _; omega)]
  change (((fs.calRun z (fun w => w - off) l).frames)[(fs.calRun z (fun w => w - off) l).frames.length - 1]?).bind _ = _
  rw [h1]
  exact h2

/-- `C104_refused` for day frames: the first tick, on 31 December 9999, raises and leaves nothing. -/
example : ∃ err, Spec.RangeError err ∧
    (Demo.calSet .day 1).calExec Zone.utc (fun w => w - 0) (Demo.calTick (midnight 9999 12 31)) = (Demo.calSet .day 1, some err) := by
  refine C104_refused Zone.utc 0 ⟨fun _ => rfl, fun _ => rfl⟩ .day 1 ⟨rfl, by decide, by decide⟩ (Demo.calSet .day 1) ⟨rfl, rfl, rfl, rfl⟩ []
    (fun _ _ h => nomatch h) none _ ?_ ?_ ?_
  · unfold Spec.InCalendar
    decide +kernel
  · rw [← fitsG_iff (accepted_tiles ⟨rfl, by decide, by decide⟩)]
    unfold FitsG
    decide +kernel
  · intro f x h
    cases h

/-- C104: there is no third case: every tick of the calendar has the effect it would have without end, or it is one whose frame does not fit,
and it is refused and has no effect. -/
theorem C104_step (z : Zone) (off : ℤ) (hz : z.Fixed off) (u : Unit') (q : ℤ) (ha : Spec.Accepted u q) (fs : FrameSet)
    (hfs : Spec.NewFrames u q fs) (l : List CalCmd) (hl : Spec.TicksIn l) (e : Option (Bool × ℤ)) (t : Tick) (ht : Spec.InCalendar t.dt.wall) :
    (fs.calRun z (fun w => w - off) l).calExec z (fun w => w - off) (.tick e t) =
      Spec.endlessExec z (fs.calRun z (fun w => w - off) l) (.tick e t) ∨
    ¬ Spec.FitsIn u q off t.dt.wall ∧ ∃ err, Spec.RangeError err ∧
      (fs.calRun z (fun w => w - off) l).calExec z (fun w => w - off) (.tick e t) = (fs.calRun z (fun w => w - off) l, some err) := by
  have hT := accepted_tiles ha
  rcases ((hfs.kinv off).run hT hz l hl |>.feed hT (c := ⟨z, e⟩) hz t ((inCal_iff _).mpr ht)).2.1 with h | ⟨h1, h2⟩
  · exact .inl h
  · exact .inr ⟨fun h => h1 ((fitsG_iff hT off _).mpr h), h2⟩

/-- C104: the whole run: if the frames of all ticks fit, it is the run in a calendar without end. -/
theorem C104_run (z : Zone) (off : ℤ) (hz : z.Fixed off) (u : Unit') (q : ℤ) (ha : Spec.Accepted u q) (fs : FrameSet)
    (hfs : Spec.NewFrames u q fs) (l : List CalCmd) (hl : Spec.TicksIn l)
    (hf : ∀ e t, CalCmd.tick e t ∈ l → Spec.FitsIn u q off t.dt.wall) :
    fs.calRun z (fun w => w - off) l = Spec.endlessRun z fs l := by
  have hT := accepted_tiles ha
  have key : ∀ (l : List CalCmd) (fs : FrameSet), KInv u q off fs → Spec.TicksIn l →
      (∀ e t, CalCmd.tick e t ∈ l → Spec.FitsIn u q off t.dt.wall) → fs.calRun z (fun w => w - off) l = Spec.endlessRun z fs l := by
    intro l
    induction l with
    | nil => intro fs _ _ _; rfl
    | cons x l ih =>
      intro fs h hl hf
      have hx : fs.calExec z (fun w => w - off) x = Spec.endlessExec z fs x := by
        rcases x with ⟨e, t⟩ | ind
        · exact (h.feed hT (c := ⟨z, e⟩) hz t ((inCal_iff _).mpr (hl e t (List.mem_cons_self ..)))).2.2.1
            ((fitsG_iff hT off _).mpr (hf e t (List.mem_cons_self ..)))
        · rfl
      have := ih (fs.calExec z (fun w => w - off) x).1
        (h.exec hT hz x (fun e t hm => hl e t (by rw [List.mem_singleton.mp hm]; exact List.mem_cons_self ..)))
        (fun e t hm => hl e t (List.mem_cons_of_mem _ hm)) (fun e t hm => hf e t (List.mem_cons_of_mem _ hm))
      unfold FrameSet.calRun Spec.endlessRun at this ⊢
      rw [List.foldl_cons, List.foldl_cons, this, hx]
  exact key l fs (hfs.kinv off) hl hf

/-- The hypotheses of `C104_run`, with frames of months between a tick of 1999 and one of the year 9000. -/
example : (Demo.calSet .month 3).calRun Zone.utc (fun w => w - 0) [Demo.calTick (midnight 1999 12 30), Demo.calTick (midnight 9000 5 1)] =
    Spec.endlessRun Zone.utc (Demo.calSet .month 3) [Demo.calTick (midnight 1999 12 30), Demo.calTick (midnight 9000 5 1)] := by
  have ha : Spec.Accepted .month 3 := ⟨rfl, by decide, by decide⟩
  refine C104_run Zone.utc 0 ⟨fun _ => rfl, fun _ => rfl⟩ .month 3 ha (Demo.calSet .month 3) ⟨rfl, rfl, rfl, rfl⟩ _ ?_ ?_
  · intro e t h
    rcases List.mem_cons.mp h with h | h
    · cases h
      unfold Spec.InCalendar
      decide +kernel
    · cases List.mem_singleton.mp h
      unfold Spec.InCalendar
      decide +kernel
  · intro e t h
    rw [← fitsG_iff (accepted_tiles ha)]
    unfold FitsG
    rcases List.mem_cons.mp h with h | h
    · cases h
      decide +kernel
    · cases List.mem_singleton.mp h
      decide +kernel

/-- C104: which frames fit: for a zone less than 24 hours from UTC all those of the years 2 to 9998, except that frames of `q` years must not
begin before year 1 or end after 9999. -/
theorem C104_years (off : ℤ) (ho : |off| < 24 * (60 * (60 * 1000000))) (u : Unit') (q : ℤ) (ha : Spec.Accepted u q) (w : ℤ)
    (h1 : 2 ≤ yearOf w) (h2 : yearOf w ≤ 9998) (hy : u = .year → q ≤ yearOf w ∧ yearOf w + q ≤ 9999) : Spec.FitsIn u q off w := by
  have hT := accepted_tiles ha
  rw [← fitsG_iff hT]
  have hw : inCal w = true := (inCal_iff w).mpr ⟨by omega, by omega⟩
  have ho' := abs_lt.mp ho
  have l1 := (le_yearOf_iff 2 w).mp h1
  have l2 : w < mfirst (12 * 9999) * dayUs := by
    by_contra h
    have := (le_yearOf_iff 9999 w).mpr (by omega)
    omega
  have e1 : mfirst (12 * 2) * dayUs = 366 * dayUs := by decide +kernel
  have e2 : mfirst (12 * 9999) * dayUs = 3651695 * dayUs := by decide +kernel
  rw [e1] at l1
  rw [e2] at l2
  obtain ⟨g1, g2⟩ := gidx_spec hT w
  have hmono := grid_strictMono hT
  have start : inCal (grid u q (gidx u q w)) = true := by
    by_contra hn
    obtain ⟨rfl, -⟩ := (calStart_tiles hT hw).2 hn
    obtain ⟨y1, y2⟩ := hy rfl
    apply hn
    have hq := hT.1
    have e3 : grid .year q (gidx .year q w) = mfirst (12 * (q * (yearOf w / q))) * dayUs := by
      simp only [grid, gidx]; rw [yearOf_midx]
    have e4 : mfirst (12 * 1) = 1 := by decide +kernel
    have d1 : 1 ≤ yearOf w / q := by rw [Int.le_ediv_iff_mul_le hq]; omega
    have d2 : 1 ≤ q * (yearOf w / q) := by
      have := mul_le_mul hq d1 (by omega) hq.le
      simpa using this
    have d3 : mfirst (12 * 1) ≤ mfirst (12 * (q * (yearOf w / q))) := mfirst_strictMono.monotone (by omega)
    rw [e4] at d3
    rw [inCal_bounds]
    refine ⟨?_, by have := inCal_bounds.mp hw; omega⟩
    rw [e3]
    have := mul_le_mul_of_nonneg_right d3 (show (0 : ℤ) ≤ dayUs by decide)
    omega
  have stop : grid u q (gidx u q w + 1) ≤ 3651695 * dayUs + 7 * dayUs := by
    have hq := hT.1
    rcases ha with ⟨-, -, hu⟩
    have hd := hT.2
    cases u with
    | tick => exact absurd rfl hu
    | second =>
      have : q ≤ 60 := Int.le_of_dvd (by decide) hd
      simp only [grid] at g1 ⊢
      rw [add_mul]
      simp only [dayUs, hourUs, minUs, secUs] at *
      omega
    | minute =>
      have : q ≤ 60 := Int.le_of_dvd (by decide) hd
      simp only [grid] at g1 ⊢
      rw [add_mul]
      simp only [dayUs, hourUs, minUs, secUs] at *
      omega
    | hour =>
      have : q ≤ 12 := Int.le_of_dvd (by decide) hd
      simp only [grid] at g1 ⊢
      rw [add_mul]
      simp only [dayUs, hourUs, minUs, secUs] at *
      omega
    | day =>
      have : q ≤ 7 := Int.le_of_dvd (by decide) hd
      simp only [grid] at g1 ⊢
      rw [mul_add]
      simp only [dayUs, hourUs, minUs, secUs] at *
      omega
    | week =>
      simp only [grid] at g1 ⊢
      simp only [dayUs, hourUs, minUs, secUs] at *
      omega
    | month =>
      obtain ⟨d, hd⟩ := hd
      have hk : grid .month q (d * 9999) = 3651695 * dayUs := by
        rw [← e2]
        simp only [grid]
        congr 2
        rw [hd]; ring
      have hle : gidx .month q w + 1 ≤ d * 9999 := by
        by_contra hn
        have := hmono.monotone (show d * 9999 ≤ gidx .month q w by omega)
        omega
      have := hmono.monotone hle
      have hdu : (0 : ℤ) ≤ dayUs := by decide
      omega
    | year =>
      obtain ⟨y1, y2⟩ := hy rfl
      have e3 : grid .year q (gidx .year q w + 1) = mfirst (12 * (q * (yearOf w / q) + q)) * dayUs := by
        simp only [grid, gidx]; rw [yearOf_midx, mul_add, mul_one]
      have d1 : q * (yearOf w / q) ≤ yearOf w := by rw [mul_comm]; exact Int.ediv_mul_le _ hq.ne'
      have d3 : mfirst (12 * (q * (yearOf w / q) + q)) ≤ mfirst (12 * 9999) := mfirst_strictMono.monotone (by omega)
      have := mul_le_mul_of_nonneg_right d3 (show (0 : ℤ) ≤ dayUs by decide)
      rw [e3]
      have hdu : (0 : ℤ) ≤ dayUs := by decide
      omega
  refine ⟨start, ?_, ?_⟩ <;> rw [inCal_bounds] <;> simp only [dayUs, hourUs, minUs, secUs] at * <;> omega

/-! ## No call runs forever -/

/-- Frames of 3000 years: a tick of 2019 is in the frame of the years 0 to 2999 and does not fit, one of 3500 fits, and one of 7500 does not. -/
example : Spec.Accepted .year 3000 ∧ ¬ Spec.FitsIn .year 3000 0 (midnight 2019 5 1) ∧ Spec.FitsIn .year 3000 0 (midnight 3500 5 1) ∧
    ¬ Spec.FitsIn .year 3000 0 (midnight 9500 5 1) := by
  have ha : Spec.Accepted .year 3000 := ⟨rfl, by decide, by decide⟩
  refine ⟨ha, ?_⟩
  rw [← fitsG_iff (accepted_tiles ha), ← fitsG_iff (accepted_tiles ha), ← fitsG_iff (accepted_tiles ha)]
  unfold FitsG
  decide +kernel

theorem calFeed_fields (inst : ℤ → ℤ) (fs : FrameSet) (c : Ctx) (t : Tick) :
    (fs.calFeed inst c t).1.unit = fs.unit ∧ (fs.calFeed inst c t).1.qty = fs.qty := by
  have hcr : ∀ (s : FrameSet) k a b, (s.feedCreate c k a b).1.unit = s.unit ∧ (s.feedCreate c k a b).1.qty = s.qty := by
    intro s k a b
    unfold FrameSet.feedCreate
    dsimp only
    split <;> exact ⟨rfl, rfl⟩
  have hla : (fs.feedLast c t).1.unit = fs.unit ∧ (fs.feedLast c t).1.qty = fs.qty := (feedLast_bounds fs c t).2.2
  have hti : (fs.calTimed inst c t).1.unit = fs.unit ∧ (fs.calTimed inst c t).1.qty = fs.qty := by
    unfold FrameSet.calTimed
    rcases calStart fs.unit fs.qty t.dt.wall with e | ps
    · exact ⟨rfl, rfl⟩
    · dsimp only
      rcases calEnd c.zone inst fs.unit fs.qty ps with e | pe
      · exact ⟨rfl, rfl⟩
      · dsimp only
        have := calFill_fields inst c ps calFuel fs
        rcases hr : calFill inst c ps calFuel fs with ⟨s, _ | e⟩ <;> rw [hr] at this
        · exact ⟨(hcr _ _ _ _).1.trans this.1, (hcr _ _ _ _).2.trans this.2⟩
        · exact this
  unfold FrameSet.calFeed
  split_ifs with hu
  · unfold FrameSet.feed
    rw [if_pos hu]
    split_ifs
    · exact hcr _ _ _ _
    · exact hla
  · rcases fs.overTimed t with e | b
    · exact ⟨rfl, rfl⟩
    · dsimp only
      split_ifs
      · exact hti
      · exact hla

theorem calRun_fields (z : Zone) (inst : ℤ → ℤ) (l : List CalCmd) : ∀ fs : FrameSet,
    (fs.calRun z inst l).unit = fs.unit ∧ (fs.calRun z inst l).qty = fs.qty := by
  induction l with
  | nil => intro fs; exact ⟨rfl, rfl⟩
  | cons x l ih =>
    intro fs
    have h := ih (fs.calExec z inst x).1
    have hx : (fs.calExec z inst x).1.unit = fs.unit ∧ (fs.calExec z inst x).1.qty = fs.qty := by
      rcases x with ⟨e, t⟩ | ind
      · exact calFeed_fields inst fs ⟨z, e⟩ t
      · exact (addIndicator_kept fs ind).2.2
    exact ⟨h.1.trans hx.1, h.2.trans hx.2⟩

/-- The full statement: a frame set that the constructor accepts, with any quantity and in any timezone, returns from every tick. -/
def Spec.C104 : Prop := ∀ (z : Zone) (inst : ℤ → ℤ) (u : Unit') (q : ℤ) (fs : FrameSet) (l : List CalCmd) (e : Option (Bool × ℤ)) (t : Tick),
  (∀ x, x ≤ z.resolve x) → checkTimeframe u q = .ok ⟨⟩ → Spec.NewFrames u q fs → Spec.TicksIn l → Spec.InCalendar t.dt.wall →
  ((fs.calRun z inst l).calExec z inst (.tick e t)).2 ≠ some .diverge

/-- C104: no tick makes a loop of the library run forever, for positive quantities in any timezone, and for negative ones in zones of constant
offset, where the loop ends at the beginning of the calendar.  Missing: negative quantities in timezones with clock changes (`C104_false`). -/
theorem C104_terminates_partial (z : Zone) (inst : ℤ → ℤ) (u : Unit') (q : ℤ) (fs : FrameSet) (hfs : Spec.NewFrames u q fs)
    (hc : checkTimeframe u q = .ok ⟨⟩) (hz : ∀ x, x ≤ z.resolve x) (hq : 0 < q ∨ ∃ off, z.Fixed off) (l : List CalCmd) (hl : Spec.TicksIn l)
    (e : Option (Bool × ℤ)) (t : Tick) :
    ((fs.calRun z inst l).calExec z inst (.tick e t)).2 ≠ some .diverge := by
  have hA : AllCal (fs.calRun z inst l) := hfs.allCal.run l hl
  obtain ⟨f1, f2⟩ := calRun_fields z inst l fs
  rw [hfs.unit] at f1
  rw [hfs.qty] at f2
  generalize fs.calRun z inst l = s at hA f1 f2
  change (s.calFeed inst ⟨z, e⟩ t).2 ≠ some .diverge
  have hla : (s.feedLast ⟨z, e⟩ t).2 ≠ some .diverge := fun hx => addToLast_nd ((feedLast_agrees s ⟨z, e⟩ t).error hx)
  unfold FrameSet.calFeed
  split_ifs with hu
  · unfold FrameSet.feed
    rw [if_pos hu]
    split_ifs
    · exact feedCreate_nd _ _ _ _ _
    · exact hla
  · rw [f1] at hu
    have htimed : (s.calTimed inst ⟨z, e⟩ t).2 ≠ some .diverge := by
      unfold FrameSet.calTimed
      rw [f1, f2]
      rcases hs : calStart u q t.dt.wall with err | ps
      · dsimp only
        intro hx
        cases hx
        unfold calStart at hs
        rcases hf : frameStart u q t.dt.wall with err | x
        · rw [hf] at hs
          cases hs
          exact frameStart_nd hf
        · rw [hf] at hs
          dsimp only at hs
          split_ifs at hs
          exact nd_of_cal (calErr_cal u) (Except.error.inj hs)
      · dsimp only
        rcases he : calEnd z inst u q ps with err | pe
        · dsimp only
          intro hx
          exact nd_of_cal (calEnd_error he) (Option.some.inj hx)
        · dsimp only
          have hq0 : q ≠ 0 := by
            rintro rfl
            have hs' := (calStart_ok hs).2
            unfold checkTimeframe at hc
            cases u <;> simp [Unit'.modulo, frameStart] at hc hs' hu
          have hfill := calFill_nd (inst := inst) (c := ⟨z, e⟩) (q := q) (fun _ => hz)
            (fun hn => by
              rcases hq with hq | ⟨off, hoff⟩
              · omega
              · exact hoff.2) ps hu hq0 calFuel s f1 f2 hA (by
            intro i f pe' h1 h2 h3
            have b1 := inCal_bounds.mp (hA.end h1 h2)
            have b2 := inCal_bounds.mp (calStart_ok hs).1
            unfold calFuel
            have : (0 : ℤ) ≤ 3652060 * dayUs := by decide
            have : (1 : ℤ) ≤ dayUs := by decide
            rw [Int.toNat_of_nonneg (by assumption)]
            split_ifs <;> omega)
          rcases hr : calFill inst ⟨z, e⟩ ps calFuel s with ⟨s', _ | err⟩ <;> rw [hr] at hfill
          · exact feedCreate_nd _ _ _ _ _
          · exact hfill
    rcases overTimed_cases s t with ⟨-, ho⟩ | ⟨i, f, -, -, ho⟩ | ⟨i, f, pe, -, -, ho⟩
    · rw [ho]; exact htimed
    · rw [ho]; simp
    · rw [ho]
      dsimp only
      split_ifs
      · exact htimed
      · exact hla

/-! ## Negative quantities -/

theorem NInv.feed {u : Unit'} {q B : ℤ} {fs : FrameSet} (h : NInv u q B fs) (hu : u ≠ .tick) (hq : q < 0) (inst : ℤ → ℤ) {c : Ctx}
    (hz : ∀ x, c.zone.resolve x = x) (t : Tick) (ht : t.dt.wall ≤ B) : NInv u q B (fs.calFeed inst c t).1 := by
  have hT := tiles_one hu
  have hbase : grid u 1 (gidx u 1 t.dt.wall) ≤ grid u 1 (gidx u 1 B) := (grid_strictMono hT).monotone (gidx_mono hT ht)
  have hla : NInv u q B (fs.feedLast c t).1 := by
    obtain ⟨b1, -, b3, b4⟩ := feedLast_bounds fs c t
    refine ⟨b3.trans h.unit, b4.trans h.qty, ?_⟩
    rcases h.cur with ⟨h1, h2⟩ | ⟨a, pe, hc, hlt⟩
    · left
      have : fs.feedLast c t = (fs, none) := by unfold FrameSet.feedLast; rw [h2]
      rw [this]
      exact ⟨h1, h2⟩
    · exact .inr ⟨a, pe, feedLast_cur hc c t, hlt⟩
  have hti : NInv u q B (fs.calTimed inst c t).1 := by
    unfold FrameSet.calTimed
    rcases hs : calStart fs.unit fs.qty t.dt.wall with e | ps
    · exact h
    · dsimp only
      rcases he : calEnd c.zone inst fs.unit fs.qty ps with e | pe
      · exact h
      · dsimp only
        have hf := h.fill hu hq inst hz ps calFuel
        rcases hr : calFill inst c ps calFuel fs with ⟨s, _ | e⟩ <;> rw [hr] at hf
        · refine NInv.create hf c t ?_
          rw [h.unit, h.qty] at hs he
          obtain ⟨-, c2⟩ := calEnd_ok he
          rw [hz] at c2
          have := (frameStart_neg hu hq (calStart_ok hs).2).2
          omega
        · exact hf
  unfold FrameSet.calFeed
  rw [if_neg (by rw [h.unit]; exact hu)]
  rcases fs.overTimed t with e | b
  · exact h
  · dsimp only
    split_ifs
    · exact hti
    · exact hla

theorem NInv.run {z : Zone} (hz : ∀ x, z.resolve x = x) (inst : ℤ → ℤ) {u : Unit'} {q B : ℤ} (hu : u ≠ .tick) (hq : q < 0) (l : List CalCmd) :
    ∀ {fs : FrameSet}, NInv u q B fs → (∀ e t, CalCmd.tick e t ∈ l → t.dt.wall ≤ B) → NInv u q B (fs.calRun z inst l) := by
  induction l with
  | nil => intro fs h _; exact h
  | cons x l ih =>
    intro fs h hl
    refine ih (fs := (fs.calExec z inst x).1) ?_ (fun e t hm => hl e t (List.mem_cons_of_mem _ hm))
    rcases x with ⟨e, t⟩ | ind
    · exact h.feed hu hq inst (c := ⟨z, e⟩) hz t (hl e t (List.mem_cons_self ..))
    · obtain ⟨h1, -, h3, h4⟩ := addIndicator_kept fs ind
      refine ⟨h3.trans h.unit, h4.trans h.qty, ?_⟩
      have hc := addIndicator_current fs ind
      rcases h.cur with ⟨k1, k2⟩ | ⟨a, pe, ⟨i, f, k1, k2⟩, k3⟩
      · exact .inl ⟨h1.trans k1, hc.trans k2⟩
      · exact .inr ⟨a, pe, ⟨i, f, hc.trans k1, k2⟩, k3⟩

theorem calRun_plain (z : Zone) (inst : ℤ → ℤ) (l : List CalCmd) (hl : ∀ ind, CalCmd.indicator ind ∉ l) : ∀ fs : FrameSet,
    (fs.calRun z inst l).maxFrames = fs.maxFrames ∧ (fs.calRun z inst l).indicators = fs.indicators := by
  induction l with
  | nil => intro fs; exact ⟨rfl, rfl⟩
  | cons x l ih =>
    intro fs
    have h := ih (fun ind hm => hl ind (List.mem_cons_of_mem _ hm)) (fs.calExec z inst x).1
    have hx : (fs.calExec z inst x).1.maxFrames = fs.maxFrames ∧ (fs.calExec z inst x).1.indicators = fs.indicators := by
      rcases x with ⟨e, t⟩ | ind
      · have hcr : ∀ (s : FrameSet) k a b, (s.feedCreate ⟨z, e⟩ k a b).1.maxFrames = s.maxFrames ∧
            (s.feedCreate ⟨z, e⟩ k a b).1.indicators = s.indicators := by
          intro s k a b
          unfold FrameSet.feedCreate
          dsimp only
          split <;> exact ⟨rfl, rfl⟩
        have hla : (fs.feedLast ⟨z, e⟩ t).1.maxFrames = fs.maxFrames ∧ (fs.feedLast ⟨z, e⟩ t).1.indicators = fs.indicators := by
          unfold FrameSet.feedLast
          split <;> exact ⟨rfl, rfl⟩
        have hti : (fs.calTimed inst ⟨z, e⟩ t).1.maxFrames = fs.maxFrames ∧ (fs.calTimed inst ⟨z, e⟩ t).1.indicators = fs.indicators := by
          unfold FrameSet.calTimed
          rcases calStart fs.unit fs.qty t.dt.wall with err | ps
          · exact ⟨rfl, rfl⟩
          · dsimp only
            rcases calEnd z inst fs.unit fs.qty ps with err | pe
            · exact ⟨rfl, rfl⟩
            · dsimp only
              have hf : (calFill inst ⟨z, e⟩ ps calFuel fs).1.maxFrames = fs.maxFrames ∧
                  (calFill inst ⟨z, e⟩ ps calFuel fs).1.indicators = fs.indicators := by
                refine calFill_induct inst ⟨z, e⟩ ps (fun s => s.maxFrames = fs.maxFrames ∧ s.indicators = fs.indicators) ?_ calFuel fs ⟨rfl, rfl⟩
                intro s i f p e' hs _ _ _ _
                exact ⟨(hcr _ _ _ _).1.trans hs.1, (hcr _ _ _ _).2.trans hs.2⟩
              rcases hr : calFill inst ⟨z, e⟩ ps calFuel fs with ⟨s, _ | err⟩ <;> rw [hr] at hf
              · exact ⟨(hcr _ _ _ _).1.trans hf.1, (hcr _ _ _ _).2.trans hf.2⟩
              · exact hf
        change (fs.calFeed inst ⟨z, e⟩ t).1.maxFrames = _ ∧ (fs.calFeed inst ⟨z, e⟩ t).1.indicators = _
        unfold FrameSet.calFeed
        split_ifs with hu
        · unfold FrameSet.feed
          rw [if_pos hu]
          split_ifs
          · exact hcr _ _ _ _
          · exact hla
        · rcases fs.overTimed t with err | b
          · exact ⟨rfl, rfl⟩
          · dsimp only
            split_ifs
            · exact hti
            · exact hla
      · exact absurd (List.mem_cons_self ..) (hl ind)
    exact ⟨h.1.trans hx.1, h.2.trans hx.2⟩

/-- C104: a timed frame set of negative quantity, which the constructor accepts, in a zone of constant offset: once it has a frame, every tick
that is not before the earlier ones raises; without indicators it is an OverflowError or a ValueError, at the end of a loop that goes back to
the beginning of the calendar. -/
theorem C104_negative (z : Zone) (inst : ℤ → ℤ) (off : ℤ) (hz : z.Fixed off) (u : Unit') (q : ℤ) (hc : checkTimeframe u q = .ok ⟨⟩) (hu : u ≠ .tick)
    (hq : q < 0) (fs : FrameSet) (hfs : Spec.NewFrames u q fs) (l : List CalCmd) (hl : Spec.TicksIn l) (e : Option (Bool × ℤ)) (t : Tick)
    (hlast : ∀ e' t', CalCmd.tick e' t' ∈ l → t'.dt.wall ≤ t.dt.wall) (hne : (fs.calRun z inst l).heap ≠ []) :
    ∃ err, ((fs.calRun z inst l).calExec z inst (.tick e t)).2 = some err ∧
      (1 ≤ fs.maxFrames → fs.indicators = [] → (∀ ind, CalCmd.indicator ind ∉ l) → Spec.RangeError err) := by
  have hT := tiles_one hu
  have hnd := C104_terminates_partial z inst u q fs hfs hc (fun x => (hz.2 x).ge) (.inr ⟨off, hz⟩) l hl e t
  have h0 : NInv u q t.dt.wall fs := ⟨hfs.unit, hfs.qty, .inl ⟨hfs.heap, by unfold FrameSet.current; rw [hfs.frames]; rfl⟩⟩
  have h := h0.run hz.2 inst hu hq l hlast
  have hp : (∀ ind, CalCmd.indicator ind ∉ l) → _ := fun hi => calRun_plain z inst l hi fs
  generalize fs.calRun z inst l = s at *
  have hcur : ∃ a pe, Cur s (a, some pe) ∧ pe < grid u 1 (gidx u 1 t.dt.wall) := by
    rcases h.cur with ⟨k1, -⟩ | k
    · exact absurd k1 hne
    · exact k
  obtain ⟨a, pe, ⟨i, f, hcu, hb⟩, hlt⟩ := hcur
  have hpe : f.periodEnd = some pe := congrArg Prod.snd hb
  have hle := (gidx_spec hT t.dt.wall).1
  have hov : s.overTimed t = .ok true := by
    unfold FrameSet.overTimed
    rw [hcu]
    dsimp only
    rw [hpe]
    dsimp only
    rw [decide_eq_true (by omega)]
  change ((s.calFeed inst ⟨z, e⟩ t).2 ≠ some .diverge) at hnd
  change ∃ err, (s.calFeed inst ⟨z, e⟩ t).2 = some err ∧ _
  unfold FrameSet.calFeed at hnd ⊢
  rw [if_neg (by rw [h.unit]; exact hu), hov] at hnd ⊢
  simp only [if_true] at hnd ⊢
  unfold FrameSet.calTimed at hnd ⊢
  rw [h.unit, h.qty] at hnd ⊢
  rcases hs : calStart u q t.dt.wall with err | ps
  · refine ⟨err, rfl, fun _ _ _ => ?_⟩
    unfold calStart at hs
    rcases hf : frameStart u q t.dt.wall with x | x
    · rw [hf] at hs
      cases hs
      unfold frameStart replaceFirst at hf
      right
      cases u <;> simp only [if_neg hq.ne] at hf <;> (try split_ifs at hf) <;> first | cases hf; rfl | cases hf
    · rw [hf] at hs
      dsimp only at hs
      split_ifs at hs
      cases hs
      exact calErr_cal u
  · rw [hs] at hnd
    dsimp only at hnd ⊢
    rcases he : calEnd z inst u q ps with err | x
    · exact ⟨err, rfl, fun _ _ _ => calEnd_error he⟩
    · rw [he] at hnd
      dsimp only at hnd ⊢
      have hps := (frameStart_neg hu hq (calStart_ok hs).2).1
      obtain ⟨y, y1, y2⟩ := calFill_raises (inst := inst) (c := ⟨z, e⟩) hz.2 ps hu hq calFuel s h.unit h.qty ⟨a, pe, ⟨i, f, hcu, hb⟩, by omega⟩
      rcases hr : calFill inst ⟨z, e⟩ ps calFuel s with ⟨s', o⟩
      rw [hr] at y1 hnd
      dsimp only at y1
      subst y1
      refine ⟨y, rfl, fun m1 m2 m3 => ?_⟩
      obtain ⟨p1, p2⟩ := hp m3
      rcases y2 (by rw [p1]; exact m1) (by rw [p2]; exact m2) with h1 | rfl
      · exact h1
      · exact absurd rfl hnd

/-! ## Clock changes -/

theorem feedCreate_silent {fs : FrameSet} (hm : 1 ≤ fs.maxFrames) (hi : fs.indicators = []) (c : Ctx) (tick : Tick) (ps : ℤ) (pe : Option ℤ) :
    (fs.feedCreate c tick ps pe).2 = none := by
  rcases feedCreate_cases hm c tick ps pe with ⟨x, hx⟩ | ⟨fs', -, hx⟩
  · exfalso
    rw [FrameSet.feedCreate, hi] at hx
    have hne : (upsert fs.heap fs.heap.length tick c.marketOpen [] (Frame.fresh tick ps pe fs.frames.getLast?)) =
      .ok (Frame.fresh tick ps pe fs.frames.getLast?) := rfl
    rw [hne] at hx
    have l1 := congrArg (fun r => r.1.heap.length) hx
    have l2 := congrArg List.length (feedClean_bounds fs.maxFrames (fs.frames ++ [fs.heap.length])
      (linkNext fs.heap fs.frames.getLast? fs.heap.length ++ [Frame.fresh tick ps pe fs.frames.getLast?]))
    have l3 := congrArg List.length (linkNext_bounds fs.heap fs.frames.getLast? fs.heap.length)
    simp only [List.length_map, List.length_append, List.length_singleton] at l1 l2 l3
    omega
  · rw [hx]

/-- Instants of wall clocks in Paris in 2019. -/
def Demo.parisInst (w : ℤ) : ℤ := if midnight 2019 3 31 + 3 * hourUs ≤ w ∧ w < midnight 2019 10 27 + 3 * hourUs then w - 2 * hourUs else w - hourUs

theorem paris_back (k : ℕ) (hk : k < 10) : calEnd Zone.paris2019 Demo.parisInst .hour (-1) (midnight 2019 3 31 + (3 + k) * hourUs) =
    .ok (midnight 2019 3 31 + (3 + (k - 1 : ℕ)) * hourUs) := by
  have h : ∀ k ∈ List.range 10, calEnd Zone.paris2019 Demo.parisInst .hour (-1) (midnight 2019 3 31 + (3 + (k : ℕ)) * hourUs) =
    .ok (midnight 2019 3 31 + (3 + ((k - 1 : ℕ) : ℤ)) * hourUs) := by decide +kernel
  exact h k (List.mem_range.mpr hk)

/-- C104: hour frames of quantity -1 in Paris, on 31 March 2019, once the end of the current frame is between 03:00 and 12:00: the loop that fills
the gap up to 13:00 is still running after any number of iterations, making frames from 03:00 to 03:00. -/
theorem C104_hang (e : Option (Bool × ℤ)) (n : ℕ) : ∀ (fs : FrameSet) (k : ℕ), k < 10 → fs.unit = .hour → fs.qty = -1 → 1 ≤ fs.maxFrames →
    fs.indicators = [] → (∃ a, Cur fs (a, some (midnight 2019 3 31 + (3 + k) * hourUs))) →
    (calFill Demo.parisInst ⟨Zone.paris2019, e⟩ (midnight 2019 3 31 + 13 * hourUs) n fs).2 = some .diverge := by
  have hlt : ∀ k < 10, midnight 2019 3 31 + (3 + (k : ℕ)) * hourUs < midnight 2019 3 31 + 13 * hourUs := by
    intro k hk
    have : (0 : ℤ) < hourUs := by decide
    nlinarith [show ((k : ℕ) : ℤ) + 1 ≤ 10 by exact_mod_cast hk]
  induction n with
  | zero =>
    intro fs k hk _ _ _ _ ⟨a, i, f, hc, hb⟩
    have hp : f.periodEnd = some _ := congrArg Prod.snd hb
    unfold calFill
    simp only [hc, hp, if_pos (hlt k hk)]
  | succ n ih =>
    intro fs k hk hu hq hm hi ⟨a, i, f, hc, hb⟩
    have hp : f.periodEnd = some _ := congrArg Prod.snd hb
    unfold calFill
    simp only [hc, hp, if_pos (hlt k hk), hu, hq, paris_back k hk]
    generalize hx : midnight 2019 3 31 + (3 + ((k : ℕ) : ℤ)) * hourUs = x
    generalize hy : midnight 2019 3 31 + (3 + ((k - 1 : ℕ) : ℤ)) * hourUs = y
    have hn := feedCreate_silent hm hi ⟨Zone.paris2019, e⟩ f.last x (some y)
    have hcur := feedCreate_cur fs ⟨Zone.paris2019, e⟩ f.last x (some y)
    have hmax : (fs.feedCreate ⟨Zone.paris2019, e⟩ f.last x (some y)).1.maxFrames = fs.maxFrames ∧
        (fs.feedCreate ⟨Zone.paris2019, e⟩ f.last x (some y)).1.indicators = fs.indicators := by
      unfold FrameSet.feedCreate
      dsimp only
      split <;> exact ⟨rfl, rfl⟩
    rcases hr : fs.feedCreate ⟨Zone.paris2019, e⟩ f.last x (some y) with ⟨fs', o⟩
    rw [hr] at hn hcur hmax
    dsimp only at hn
    subst hn
    dsimp only
    rcases hcur with ⟨-, w, hw⟩ | ⟨h1, h2, h3, -⟩
    · cases hw
    · refine ih fs' (k - 1) (by omega) (h2.trans hu) (h3.trans hq) (by rw [hmax.1]; exact hm) (by rw [hmax.2]; exact hi) ⟨x, ?_⟩
      rw [hy]
      exact h1

/-- 13:00 of 31 March 2019 in Paris. -/
def Demo.parisOne : Tick := ⟨(⟨midnight 2019 3 31 + 11 * hourUs, midnight 2019 3 31 + 11 * hourUs, 0⟩ : DT).to Zone.paris2019, 10, 11⟩

/-- The frame set after the first tick: one frame, from 13:00 to 12:00. -/
def Demo.parisSet : FrameSet :=
  ⟨.hour, -1, 1000, [Frame.fresh Demo.parisOne (midnight 2019 3 31 + 13 * hourUs) (some (midnight 2019 3 31 + 12 * hourUs)) none], [0], []⟩

theorem calFill_idle {inst : ℤ → ℤ} {c : Ctx} {ps : ℤ} {n : ℕ} {fs : FrameSet} (h : fs.current = none) : calFill inst c ps n fs = (fs, none) := by
  unfold calFill
  rw [h]

theorem calTimed_start {inst : ℤ → ℤ} {fs : FrameSet} {c : Ctx} {t : Tick} {ps pe : ℤ} (hu : fs.unit ≠ .tick) (ho : fs.overTimed t = .ok true)
    (h1 : calStart fs.unit fs.qty t.dt.wall = .ok ps) (h2 : calEnd c.zone inst fs.unit fs.qty ps = .ok pe) : ∃ n, fs.calFeed inst c t =
      match calFill inst c ps n fs with
      | (fs', none) => fs'.feedCreate c t ps (some pe)
      | (fs', some e) => (fs', some e) := by
  refine ⟨calFuel, ?_⟩
  rw [FrameSet.calFeed, if_neg hu, ho]
  simp only [if_true]
  rw [FrameSet.calTimed, h1]
  dsimp only
  rw [h2]
  rfl

theorem paris_one (fs : FrameSet) (hu : fs.unit = .hour) (hq : fs.qty = -1) (ho : fs.overTimed Demo.parisOne = .ok true) : ∃ n,
    fs.calFeed Demo.parisInst ⟨Zone.paris2019, none⟩ Demo.parisOne =
      match calFill Demo.parisInst ⟨Zone.paris2019, none⟩ (midnight 2019 3 31 + 13 * hourUs) n fs with
      | (fs', none) => fs'.feedCreate ⟨Zone.paris2019, none⟩ Demo.parisOne (midnight 2019 3 31 + 13 * hourUs) (some (midnight 2019 3 31 + 12 * hourUs))
      | (fs', some e) => (fs', some e) := by
  have h1 : calStart .hour (-1) Demo.parisOne.dt.wall = .ok (midnight 2019 3 31 + 13 * hourUs) := by decide +kernel
  have h2 : calEnd Zone.paris2019 Demo.parisInst .hour (-1) (midnight 2019 3 31 + 13 * hourUs) =
      .ok (midnight 2019 3 31 + 12 * hourUs) := by decide +kernel
  refine calTimed_start (by rw [hu]; decide) ho ?_ ?_
  · rw [hu, hq]; exact h1
  · rw [hu, hq]; exact h2

theorem paris_second : (Demo.parisSet.calFeed Demo.parisInst ⟨Zone.paris2019, none⟩ Demo.parisOne).2 = some .diverge := by
  obtain ⟨n, hn⟩ := paris_one Demo.parisSet rfl rfl (by
    unfold FrameSet.overTimed Demo.parisSet FrameSet.current Frame.fresh
    simp only [List.getLast?_singleton, List.getElem?_cons_zero, Option.map]
    have : decide (midnight 2019 3 31 + 12 * hourUs ≤ Demo.parisOne.dt.wall) = true := by decide +kernel
    rw [this])
  rw [hn]
  have hh := C104_hang none n Demo.parisSet 9 (by decide) rfl rfl (by decide) rfl ⟨midnight 2019 3 31 + 13 * hourUs, 0, _, rfl, rfl⟩
  rcases hr : calFill Demo.parisInst ⟨Zone.paris2019, none⟩ (midnight 2019 3 31 + 13 * hourUs) n Demo.parisSet with ⟨s, o⟩
  rw [show midnight 2019 3 31 + (13 : ℤ) * hourUs = midnight 2019 3 31 + 13 * hourUs from rfl, hr] at hh
  dsimp only at hh
  subst hh
  rfl

theorem paris_first : (FrameSet.calFeed Demo.parisInst ⟨.hour, -1, 1000, [], [], []⟩ ⟨Zone.paris2019, none⟩ Demo.parisOne).1 = Demo.parisSet := by
  obtain ⟨n, hn⟩ := paris_one ⟨.hour, -1, 1000, [], [], []⟩ rfl rfl rfl
  rw [hn, calFill_idle rfl]
  rfl

/-- C104 is false of the code: the second tick of hour frames of quantity -1 on the day of a clock change. -/
theorem C104_false : letI := Arith.exact
    ¬ Spec.C104 := by
  letI := Arith.exact
  intro h
  have h1 := h Zone.paris2019 Demo.parisInst .hour (-1) ⟨.hour, -1, 1000, [], [], []⟩ [.tick none Demo.parisOne] none Demo.parisOne ?_ rfl ⟨rfl, rfl, rfl, rfl⟩ ?_ ?_
  · apply h1
    change ((FrameSet.calFeed Demo.parisInst ⟨.hour, -1, 1000, [], [], []⟩ ⟨Zone.paris2019, none⟩ Demo.parisOne).1.calFeed Demo.parisInst
      ⟨Zone.paris2019, none⟩ Demo.parisOne).2 = _
    rw [paris_first]
    exact paris_second
  · intro x
    unfold Zone.paris2019
    dsimp only
    have : (0 : ℤ) < hourUs := by decide
    split_ifs <;> omega
  · intro e t ht
    cases List.mem_singleton.mp ht
    unfold Spec.InCalendar
    decide +kernel
  · unfold Spec.InCalendar
    decide +kernel

/-- `C104_negative` for frames of -1 days: the first tick makes a frame that ends before it begins, the second raises. -/
example : ∃ err, (((Demo.calSet .day (-1)).calRun Zone.utc (fun w => w) [Demo.calTick (midnight 2019 5 1)]).calExec
    Zone.utc (fun w => w) (Demo.calTick (midnight 2019 5 2))).2 = some err ∧ Spec.RangeError err := by
  have hm : ∀ e' t', CalCmd.tick e' t' ∈ [Demo.calTick (midnight 2019 5 1)] → t' = ⟨⟨midnight 2019 5 1, midnight 2019 5 1, 0⟩, 10, 11⟩ := by
    intro e' t' h
    cases List.mem_singleton.mp h
    rfl
  obtain ⟨err, h1, h2⟩ := C104_negative Zone.utc (fun w => w) 0 ⟨fun _ => rfl, fun _ => rfl⟩ .day (-1) (by decide) (by decide) (by decide)
    (Demo.calSet .day (-1)) ⟨rfl, rfl, rfl, rfl⟩ [Demo.calTick (midnight 2019 5 1)]
    (fun e t h => by rw [hm e t h]; unfold Spec.InCalendar; decide +kernel) none ⟨⟨midnight 2019 5 2, midnight 2019 5 2, 0⟩, 10, 11⟩
    (fun e t h => by rw [hm e t h]; decide +kernel) (by
      have h1 : calStart .day (-1) (midnight 2019 5 1) = .ok (midnight 2019 5 1) := by decide +kernel
      have h2 : calEnd Zone.utc (fun w => w) .day (-1) (midnight 2019 5 1) = .ok (midnight 2019 4 30) := by decide +kernel
      obtain ⟨n, hn⟩ := calTimed_start (inst := fun w => w) (fs := Demo.calSet .day (-1)) (c := ⟨Zone.utc, none⟩)
        (t := ⟨⟨midnight 2019 5 1, midnight 2019 5 1, 0⟩, 10, 11⟩) (by decide) rfl h1 h2
      change ((Demo.calSet .day (-1)).calFeed (fun w => w) ⟨Zone.utc, none⟩ ⟨⟨midnight 2019 5 1, midnight 2019 5 1, 0⟩, 10, 11⟩).1.heap ≠ []
      rw [hn, calFill_idle rfl]
      intro h
      cases h)
  exact ⟨err, h1, h2 (by decide) rfl (fun ind h => by cases List.mem_singleton.mp h)⟩

/-! ## The epic -/

/-- Spec: `Epic.on_new_tick` up to the strategies in a calendar without end. -/
def Spec.endlessTick (ep : Epic) (t : Tick) : Epic × Option PyErr :=
  if (t.dt.to ep.zone).lt ep.lastTick.dt then (ep, some .epic) else ep.accept { t with dt := t.dt.to ep.zone }

/-- C104: a tick in another timezone that is out of the calendar as an instant or in the zone of the epic: an OverflowError, and the epic and its
frame sets are as they were. -/
theorem C104_conversion (inst : ℤ → ℤ) (ep : Epic) (t : Tick) (hz : t.dt.tz ≠ ep.zone.id)
    (h : ¬ (Spec.InCalendar t.dt.utc ∧ Spec.InCalendar (t.dt.utc + ep.zone.off t.dt.utc))) : ep.calTick inst t = (ep, some .overflow) := by
  unfold Epic.calTick DT.calTo
  rw [if_neg hz, if_neg]
  intro hb
  simp only [Bool.and_eq_true] at hb
  exact h ⟨(inCal_iff _).mp hb.1, (inCal_iff _).mp hb.2⟩

/-- `C104_conversion`: a tick at 23:00 UTC of the last day of the calendar for an epic two hours east of UTC, and one of the first day for an
epic three hours west. -/
example (inst : ℤ → ℤ) (ep : Epic) :
    ({ ep with zone := ⟨1, fun _ => 2 * hourUs, id⟩ } : Epic).calTick inst
      ⟨⟨midnight 9999 12 31 + 23 * hourUs, midnight 9999 12 31 + 23 * hourUs, 0⟩, 10, 11⟩ =
      ({ ep with zone := ⟨1, fun _ => 2 * hourUs, id⟩ }, some .overflow) ∧
    ({ ep with zone := ⟨2, fun _ => -3 * hourUs, id⟩ } : Epic).calTick inst ⟨⟨midnight 1 1 1 + 2 * hourUs, midnight 1 1 1 + 2 * hourUs, 0⟩, 10, 11⟩ =
      ({ ep with zone := ⟨2, fun _ => -3 * hourUs, id⟩ }, some .overflow) := by
  constructor <;> refine C104_conversion inst _ _ (by intro h; cases h) ?_ <;> unfold Spec.InCalendar <;> dsimp only <;> decide +kernel

/-- A frame set of an epic: of ticks or in order. -/
def OkSet (off : ℤ) (fs : FrameSet) : Prop := fs.unit = .tick ∨ (Tiles fs.unit fs.qty ∧ KInv fs.unit fs.qty off fs)

theorem OkSet.feed {off : ℤ} {fs : FrameSet} (h : OkSet off fs) {c : Ctx} (hz : c.zone.Fixed off) (t : Tick) (ht : Spec.InCalendar t.dt.wall)
    (hf : fs.unit = .tick ∨ Spec.FitsIn fs.unit fs.qty off t.dt.wall) :
    fs.calFeed (fun w => w - off) c t = fs.feed c t ∧ OkSet off (fs.calFeed (fun w => w - off) c t).1 ∧
      (fs.calFeed (fun w => w - off) c t).1.unit = fs.unit ∧ (fs.calFeed (fun w => w - off) c t).1.qty = fs.qty := by
  obtain ⟨f1, f2⟩ := calFeed_fields (fun w => w - off) fs c t
  refine ⟨?_, ?_, f1, f2⟩
  · rcases h with h | ⟨hT, h⟩
    · unfold FrameSet.calFeed
      rw [if_pos h]
    · rcases hf with hf | hf
      · exact absurd hf hT.ne_tick
      · exact (h.feed hT hz t ((inCal_iff _).mpr ht)).2.2.1 ((fitsG_iff hT off _).mpr hf)
  · rcases h with h | ⟨hT, h⟩
    · exact .inl (f1.trans h)
    · right
      rw [f1, f2]
      exact ⟨hT, (h.feed hT hz t ((inCal_iff _).mpr ht)).1⟩

theorem calSets_eq {off : ℤ} {c : Ctx} (hz : c.zone.Fixed off) (t : Tick) (ht : Spec.InCalendar t.dt.wall) (S : Unit' → ℤ → Prop)
    (hS : ∀ u q, S u q → u = .tick ∨ Spec.FitsIn u q off t.dt.wall) (d : Dict FrameSet)
    (hd : ∀ p ∈ d, OkSet off p.2 ∧ S p.2.unit p.2.qty) :
    calSets (fun w => w - off) c t d = updateFrameSets c t d ∧
      ∀ p ∈ (calSets (fun w => w - off) c t d).1, OkSet off p.2 ∧ S p.2.unit p.2.qty := by
  induction d with
  | nil => exact ⟨rfl, hd⟩
  | cons p d ih =>
    obtain ⟨k, fs⟩ := p
    obtain ⟨o1, o2⟩ := hd (k, fs) (List.mem_cons_self ..)
    obtain ⟨e1, e2, e3, e4⟩ := o1.feed hz t ht (hS _ _ o2)
    obtain ⟨i1, i2⟩ := ih (fun p hp => hd p (List.mem_cons_of_mem _ hp))
    unfold calSets updateFrameSets
    rw [e1, i1]
    rw [e1] at e2 e3 e4
    refine ⟨rfl, ?_⟩
    rcases hr : fs.feed c t with ⟨s, _ | err⟩ <;> rw [hr] at e2 e3 e4
    · intro p hp
      rcases List.mem_cons.mp hp with rfl | hp
      · exact ⟨e2, by rw [e3, e4]; exact o2⟩
      · rw [i1] at i2; exact i2 p hp
    · intro p hp
      rcases List.mem_cons.mp hp with rfl | hp
      · exact ⟨e2, by rw [e3, e4]; exact o2⟩
      · exact hd p (List.mem_cons_of_mem _ hp)

/-- C104: an epic with any number of new frame sets, and ticks that are in the calendar as instants and in the zone of the epic, and whose frames
fit: every tick has the effect on the epic and its frame sets, and the exceptions, that it would have if the calendar had no end. -/
theorem C104_epic (off : ℤ) (ep : Epic) (hz : ep.zone.Fixed off)
    (hs : ∀ p ∈ ep.frameSets, p.2.unit = .tick ∨ (Spec.Accepted p.2.unit p.2.qty ∧ Spec.NewFrames p.2.unit p.2.qty p.2)) (ts : List Tick)
    (hts : ∀ t ∈ ts, Spec.InCalendar t.dt.utc ∧ Spec.InCalendar (t.dt.utc + off) ∧
      ∀ p ∈ ep.frameSets, p.2.unit = .tick ∨ Spec.FitsIn p.2.unit p.2.qty off (t.dt.utc + off)) (t : Tick) (ht : t ∈ ts) (pre : List Tick)
    (hp : ∀ x ∈ pre, x ∈ ts) :
    (pre.foldl (fun e x => (e.calTick (fun w => w - off) x).1) ep).calTick (fun w => w - off) t =
      Spec.endlessTick (pre.foldl (fun e x => (Spec.endlessTick e x).1) ep) t := by
  have step : ∀ (S : Unit' → ℤ → Prop) (e : Epic) (x : Tick), e.zone = ep.zone → (∀ p ∈ e.frameSets, OkSet off p.2 ∧ S p.2.unit p.2.qty) →
      Spec.InCalendar x.dt.utc → Spec.InCalendar (x.dt.utc + off) → (∀ u q, S u q → u = .tick ∨ Spec.FitsIn u q off (x.dt.utc + off)) →
      e.calTick (fun w => w - off) x = Spec.endlessTick e x ∧ (e.calTick (fun w => w - off) x).1.zone = ep.zone ∧
      ∀ p ∈ (e.calTick (fun w => w - off) x).1.frameSets, OkSet off p.2 ∧ S p.2.unit p.2.qty := by
    intro S e x h1 h2 h3 h4 h5
    have hto : x.dt.calTo e.zone = .ok (x.dt.to e.zone) := by
      unfold DT.calTo
      rw [h1, hz.1, (inCal_iff _).mpr h3, (inCal_iff _).mpr h4]
      simp
    have hw : (x.dt.to e.zone).wall = x.dt.utc + off := by rw [h1]; unfold DT.to; rw [hz.1]
    unfold Epic.calTick Spec.endlessTick
    rw [hto]
    dsimp only
    split_ifs with hlt
    · exact ⟨rfl, h1, h2⟩
    · unfold Epic.accept Epic.calAccept
      dsimp only
      obtain ⟨k1, k2⟩ := calSets_eq (off := off)
        (c := ⟨e.zone, some (({ e with lastTick := { x with dt := x.dt.to e.zone } } : Epic).isMarketOpen, ordOf (x.dt.to e.zone).wall)⟩)
        (by rw [h1]; exact hz) { x with dt := x.dt.to e.zone } (by dsimp only; rw [hw]; exact h4) S
        (by dsimp only; rw [hw]; exact h5) e.frameSets h2
      exact ⟨by rw [k1], h1, k2⟩
  have key : ∀ (pre : List Tick) (e : Epic), (∀ x ∈ pre, x ∈ ts) → e.zone = ep.zone →
      (∀ p ∈ e.frameSets, OkSet off p.2 ∧ ∃ p0 ∈ ep.frameSets, p0.2.unit = p.2.unit ∧ p0.2.qty = p.2.qty) →
      (pre.foldl (fun e x => (e.calTick (fun w => w - off) x).1) e).calTick (fun w => w - off) t =
        Spec.endlessTick (pre.foldl (fun e x => (Spec.endlessTick e x).1) e) t := by
    have fits : ∀ x ∈ ts, ∀ u q, (∃ p0 ∈ ep.frameSets, p0.2.unit = u ∧ p0.2.qty = q) → u = .tick ∨ Spec.FitsIn u q off (x.dt.utc + off) := by
      rintro x hx u q ⟨p0, m0, rfl, rfl⟩
      exact (hts x hx).2.2 p0 m0
    intro pre
    induction pre with
    | nil =>
      intro e _ h1 h2
      exact (step (fun u q => ∃ p0 ∈ ep.frameSets, p0.2.unit = u ∧ p0.2.qty = q) e t h1 h2 (hts t ht).1 (hts t ht).2.1 (fits t ht)).1
    | cons x pre ih =>
      intro e hp h1 h2
      have hx := hp x (List.mem_cons_self ..)
      obtain ⟨s1, s2, s3⟩ := step (fun u q => ∃ p0 ∈ ep.frameSets, p0.2.unit = u ∧ p0.2.qty = q) e x h1 h2 (hts x hx).1 (hts x hx).2.1 (fits x hx)
      rw [List.foldl_cons, List.foldl_cons, ← s1]
      exact ih _ (fun y hy => hp y (List.mem_cons_of_mem _ hy)) s2 s3
  refine key pre ep hp rfl ?_
  intro p hm
  refine ⟨?_, p, hm, rfl, rfl⟩
  rcases hs p hm with h | ⟨h1, h2⟩
  · exact .inl h
  · exact .inr ⟨accepted_tiles h1, h2.kinv off⟩

/-- The hypotheses of `C104_epic`: frames of ticks and of weeks, in a zone five hours east of UTC, and ticks of the years 2019 and 9998. -/
example (ep : Epic) : let e : Epic := { ep with zone := ⟨1, fun _ => 5 * hourUs, id⟩, frameSets := [("t", Demo.calSet .tick 10), ("w", Demo.calSet .week 1)] }
    e.zone.Fixed (5 * hourUs) ∧
    (∀ p ∈ e.frameSets, p.2.unit = .tick ∨ (Spec.Accepted p.2.unit p.2.qty ∧ Spec.NewFrames p.2.unit p.2.qty p.2)) ∧
    ∀ w ∈ [midnight 2019 5 1, midnight 9998 12 30 + 7 * hourUs], Spec.InCalendar w ∧ Spec.InCalendar (w + 5 * hourUs) ∧
      ∀ p ∈ e.frameSets, p.2.unit = .tick ∨ Spec.FitsIn p.2.unit p.2.qty (5 * hourUs) (w + 5 * hourUs) := by
  have ha : Spec.Accepted .week 1 := ⟨rfl, by decide, by decide⟩
  refine ⟨⟨fun _ => rfl, fun _ => rfl⟩, ?_, ?_⟩
  · intro p hp
    rcases List.mem_cons.mp hp with rfl | hp
    · exact .inl rfl
    · rw [List.mem_singleton.mp hp]
      exact .inr ⟨ha, ⟨rfl, rfl, rfl, rfl⟩⟩
  · intro w hw
    have hw' : 2 ≤ yearOf (w + 5 * hourUs) ∧ yearOf (w + 5 * hourUs) ≤ 9998 ∧ Spec.InCalendar w := by
      unfold Spec.InCalendar
      rcases List.mem_cons.mp hw with rfl | hw
      · decide +kernel
      · rw [List.mem_singleton.mp hw]
        decide +kernel
    refine ⟨hw'.2.2, ⟨by omega, by omega⟩, ?_⟩
    intro p hp
    rcases List.mem_cons.mp hp with rfl | hp
    · exact .inl rfl
    · rw [List.mem_singleton.mp hp]
      exact .inr (C104_years (5 * hourUs) (by decide) .week 1 ha _ hw'.1 hw'.2.1 (fun h => by cases h))

end
end Estrade
