import Verif.Rezone
import Verif.Lemmas.Redate
import Verif.Lemmas.Timed
import Verif.Props.Timeframes
import Verif.Props.Settings

/-! # Lemmas on frame sets whose bounds have different zones -/

set_option linter.style.haveILetI false
set_option linter.unusedSectionVars false
set_option autoImplicit false

namespace Estrade

/-- A datetime of one of the zones of the table. -/
def Proper (offs : ℕ → ℤ) (d : DT) : Prop := d.wall = d.utc + offs d.tz

theorem atZone_proper (offs : ℕ → ℤ) (n : ℕ) (u : ℤ) : Proper offs (atZone offs n u) := rfl

theorem to_proper (offs : ℕ → ℤ) (n : ℕ) (d : DT) : d.to (tableZone offs n) = atZone offs n d.utc := rfl

/-- Datetimes of zones of constant offset are compared as instants. -/
theorem Proper.lt {offs : ℕ → ℤ} {a b : DT} (ha : Proper offs a) (hb : Proper offs b) : a.lt b = decide (a.utc < b.utc) := by
  unfold DT.lt
  split_ifs with h
  · rw [ha, hb, h]
    exact decide_eq_decide.mpr (by omega)
  · rfl

section
variable [Arith]

/-- The bounds of a frame. -/
def Frame.bounds (f : Frame) : ℤ × Option ℤ := (f.periodStart, f.periodEnd)

theorem feedOne_bounds (heap : List Frame) (id : ℕ) (tick : Tick) (mo : Bool) (f : Frame) (p : String × Indicator) :
    (feedOne heap id tick mo f p).1.bounds = f.bounds := by
  unfold feedOne
  rcases f.get p.1 with _ | v
  · dsimp only
    rcases p.2.build heap id f mo with e | nv <;> rfl
  · dsimp only
    rcases v.onNewTick heap f tick mo with e | v' <;> rfl

theorem feedInds_bounds (heap : List Frame) (id : ℕ) (tick : Tick) (mo : Bool) (d : Dict Indicator) : ∀ f : Frame,
    (feedInds heap id tick mo d f).1.bounds = f.bounds := by
  induction d with
  | nil => intro f; rfl
  | cons p d ih =>
    intro f
    unfold feedInds
    have h := feedOne_bounds heap id tick mo f p
    rcases hx : feedOne heap id tick mo f p with ⟨f', _ | e⟩ <;> rw [hx] at h
    · exact (ih f').trans h
    · exact h

theorem track_bounds (f : Frame) (tick : Tick) : (f.track tick).bounds = f.bounds := by
  unfold Frame.track
  dsimp only
  split_ifs <;> rfl

theorem modify_bounds (l : List Frame) (i : ℕ) (g : Frame → Frame) (hg : ∀ f, (g f).bounds = f.bounds) :
    (l.modify i g).map Frame.bounds = l.map Frame.bounds := by
  apply List.ext_getElem?
  intro j
  rw [List.getElem?_map, List.getElem?_map, List.getElem?_modify]
  rcases l[j]? with _ | f
  · rfl
  · split_ifs
    · exact congrArg some (hg f)
    · rfl

theorem feedClean_bounds (max : ℤ) (l : List ℕ) : ∀ heap : List Frame,
    (feedClean max heap l).1.1.map Frame.bounds = heap.map Frame.bounds := by
  induction l with
  | nil => intro heap; rfl
  | cons a l ih =>
    intro heap
    rcases l with _ | ⟨d, rest⟩
    · rfl
    · unfold feedClean
      dsimp only
      split_ifs
      · rw [ih, modify_bounds _ _ _ (by intro f; rfl), modify_bounds _ _ _ (by intro f; rfl)]
      · rfl

theorem feedClean_getLast (max : ℤ) (l : List ℕ) : ∀ heap : List Frame,
    (feedClean max heap l).1.2.getLast? = l.getLast? := by
  induction l with
  | nil => intro heap; rfl
  | cons a l ih =>
    intro heap
    rcases l with _ | ⟨d, rest⟩
    · rfl
    · unfold feedClean
      dsimp only
      split_ifs
      · rw [ih]; rfl
      · rfl

theorem linkNext_bounds (heap : List Frame) (cur : Option ℕ) (id : ℕ) :
    (linkNext heap cur id).map Frame.bounds = heap.map Frame.bounds := by
  unfold linkNext
  rcases cur with _ | i
  · rfl
  · exact modify_bounds _ _ _ (by intro f; rfl)

/-- What `create_new_frame` does to the bounds: it raises before anything is changed, or a frame with the given bounds is the
newest one. -/
theorem feedCreate_bounds (fs : FrameSet) (c : Ctx) (tick : Tick) (ps : ℤ) (pe : Option ℤ) :
    ((fs.feedCreate c tick ps pe).1 = fs ∧ ∃ e, (fs.feedCreate c tick ps pe).2 = some e) ∨
    ((fs.feedCreate c tick ps pe).1.heap.map Frame.bounds = fs.heap.map Frame.bounds ++ [(ps, pe)] ∧
      (fs.feedCreate c tick ps pe).1.frames.getLast? = some fs.heap.length ∧
      (fs.feedCreate c tick ps pe).1.unit = fs.unit ∧ (fs.feedCreate c tick ps pe).1.qty = fs.qty) := by
  unfold FrameSet.feedCreate
  dsimp only
  have h := feedInds_bounds fs.heap fs.heap.length tick c.marketOpen fs.indicators (Frame.fresh tick ps pe fs.frames.getLast?)
  rw [upsert_eq]
  rcases hx : (feedInds fs.heap fs.heap.length tick c.marketOpen fs.indicators (Frame.fresh tick ps pe fs.frames.getLast?)).2 with _ | e
  · right
    refine ⟨?_, ?_, rfl, rfl⟩
    · dsimp only
      rw [feedClean_bounds, List.map_append, linkNext_bounds]
      exact congrArg (fun x => _ ++ [x]) h
    · dsimp only
      rw [feedClean_getLast]
      simp
  · left
    exact ⟨rfl, e, rfl⟩

theorem feedLast_bounds (fs : FrameSet) (c : Ctx) (tick : Tick) :
    (fs.feedLast c tick).1.heap.map Frame.bounds = fs.heap.map Frame.bounds ∧ (fs.feedLast c tick).1.frames = fs.frames ∧
      (fs.feedLast c tick).1.unit = fs.unit ∧ (fs.feedLast c tick).1.qty = fs.qty := by
  unfold FrameSet.feedLast
  rcases hc : fs.current with _ | ⟨i, f⟩
  · exact ⟨rfl, rfl, rfl, rfl⟩
  · refine ⟨?_, rfl, rfl, rfl⟩
    have hf : fs.heap[i]? = some f := by
      unfold FrameSet.current at hc
      split at hc
      · cases hc
      · rename_i j hj
        rcases hh : fs.heap[j]? with _ | g
        · rw [hh] at hc; cases hc
        · rw [hh] at hc
          simp only [Option.map_some, Option.some.injEq, Prod.mk.injEq] at hc
          rw [← hc.1, ← hc.2]; exact hh
    dsimp only
    apply List.ext_getElem?
    intro j
    rw [List.getElem?_map, List.getElem?_map, List.getElem?_set]
    split_ifs with h1 h2
    · subst h1
      rw [hf]
      simp only [Option.map_some, Option.some.injEq]
      rw [feedInds_bounds, track_bounds]
    · subst h1
      rw [List.getElem?_eq_none (by omega)]
    · rfl

/-! ## The invariant of timed frame sets -/

/-- Frames begin at boundaries of the clock of their zone and end at the next one; the current frame is the newest one. -/
structure ZInv (offs : ℕ → ℤ) (u : Unit') (q : ℤ) (z : ZFrameSet) : Prop where
  unit : z.fs.unit = u
  qty : z.fs.qty = q
  zones : z.zones.length = z.fs.heap.length
  last : z.fs.frames.getLast? = if z.fs.heap = [] then none else some (z.fs.heap.length - 1)
  period : ∀ i : ℕ, ∀ b : ℤ × Option ℤ, ∀ n : ℕ, (z.fs.heap.map Frame.bounds)[i]? = some b → z.zones[i]? = some n →
    ∃ k, b.1 = grid u q k - offs n ∧ b.2 = some (grid u q (k + 1) - offs n)
  linked : ∀ i : ℕ, ∀ a b : ℤ × Option ℤ, (z.fs.heap.map Frame.bounds)[i]? = some a →
    (z.fs.heap.map Frame.bounds)[i + 1]? = some b → a.1 < b.1 ∧ ∃ e, a.2 = some e ∧ b.1 ≤ e

/-- The bounds of the current frame and their zone. -/
def ZFrameSet.now (z : ZFrameSet) : Option (ℤ × Option ℤ) := (z.fs.heap.map Frame.bounds).getLast?

theorem ZInv.current {offs : ℕ → ℤ} {u : Unit'} {q : ℤ} {z : ZFrameSet} (h : ZInv offs u q z) :
    (z.fs.heap = [] ∧ z.fs.current = none ∧ z.now = none) ∨
    ∃ i f n k, z.fs.heap.length = i + 1 ∧ z.fs.heap[i]? = some f ∧ z.zones[i]? = some n ∧ z.fs.current = some (i, f) ∧
      z.now = some f.bounds ∧ f.periodStart = grid u q k - offs n ∧ f.periodEnd = some (grid u q (k + 1) - offs n) := by
  rcases hh : z.fs.heap with _ | ⟨f0, rest⟩
  · left
    refine ⟨rfl, ?_, ?_⟩
    · have := h.last
      rw [hh, if_pos rfl] at this
      unfold FrameSet.current
      rw [this]
    · unfold ZFrameSet.now; rw [hh]; rfl
  · right
    rw [← hh]
    have hlen : z.fs.heap.length = rest.length + 1 := by rw [hh]; rfl
    have hne : z.fs.heap ≠ [] := by rw [hh]; exact List.cons_ne_nil _ _
    have hl := h.last
    rw [if_neg hne, hlen, Nat.add_sub_cancel] at hl
    have hi : rest.length < z.fs.heap.length := by omega
    have hz : rest.length < z.zones.length := by rw [h.zones]; exact hi
    obtain ⟨k, k1, k2⟩ := h.period rest.length (z.fs.heap[rest.length]).bounds (z.zones[rest.length])
      (by rw [List.getElem?_map, List.getElem?_eq_getElem hi]; rfl) (List.getElem?_eq_getElem hz)
    refine ⟨rest.length, z.fs.heap[rest.length], z.zones[rest.length], k, hlen, List.getElem?_eq_getElem hi,
      List.getElem?_eq_getElem hz, ?_, ?_, k1, k2⟩
    · unfold FrameSet.current
      rw [hl]
      dsimp only
      rw [List.getElem?_eq_getElem hi]; rfl
    · unfold ZFrameSet.now
      rw [List.getLast?_eq_getElem?, List.length_map, hlen, Nat.add_sub_cancel, List.getElem?_map, List.getElem?_eq_getElem hi]
      rfl

/-- `create_new_frame` on a state with the invariant. -/
theorem ZInv.create {offs : ℕ → ℤ} {u : Unit'} {q : ℤ} {z : ZFrameSet} (h : ZInv offs u q z) (c : Ctx) (tick : Tick) (n : ℕ) (k : ℤ)
    (ps pe : DT) (hps : ps.utc = grid u q k - offs n) (hn : ps.tz = n) (hpe : pe.utc = grid u q (k + 1) - offs n)
    (hnow : ∀ b, z.now = some b → b.1 < ps.utc ∧ ∃ e, b.2 = some e ∧ ps.utc ≤ e) :
    ZInv offs u q (z.create c tick ps (some pe)).1 ∧
      ((z.create c tick ps (some pe)).1 = z ∧ (∃ e, (z.create c tick ps (some pe)).2 = some e) ∨
        (z.create c tick ps (some pe)).1.now = some (ps.utc, some pe.utc)) := by
  rcases feedCreate_bounds z.fs c tick ps.utc (some pe.utc) with ⟨h1, h2⟩ | ⟨h1, h2, h3, h4⟩
  · have : (z.create c tick ps (some pe)).1 = z := by
      have hl : ¬ z.fs.heap.length < (z.fs.feedCreate c tick ps.utc (some pe.utc)).1.heap.length := by rw [h1]; omega
      unfold ZFrameSet.create
      simp only [Option.map_some, if_neg hl]
      rw [h1]
    refine ⟨by rw [this]; exact h, .inl ⟨this, h2⟩⟩
  · have hlen : (z.fs.feedCreate c tick ps.utc (some pe.utc)).1.heap.length = z.fs.heap.length + 1 := by
      have := congrArg List.length h1
      simpa using this
    have hz : (z.create c tick ps (some pe)).1 = ⟨(z.fs.feedCreate c tick ps.utc (some pe.utc)).1, z.zones ++ [n]⟩ := by
      unfold ZFrameSet.create
      simp only [Option.map_some]
      rw [if_pos (by omega), hn]
    rw [hz]
    refine ⟨⟨h3.trans h.unit, h4.trans h.qty, ?_, ?_, ?_, ?_⟩, .inr ?_⟩
    · rw [List.length_append, h.zones, hlen]; rfl
    · rw [h2, if_neg (by intro hc; rw [hc] at hlen; cases hlen), hlen]; rfl
    · intro i b m hb hm
      dsimp only at hb hm
      rw [h1] at hb
      by_cases hi : i < z.fs.heap.length
      · rw [List.getElem?_append_left (by simpa using hi)] at hb
        rw [List.getElem?_append_left (by rw [h.zones]; exact hi)] at hm
        exact h.period i b m hb hm
      · rw [List.getElem?_append_right (by simpa using hi)] at hb
        rw [List.getElem?_append_right (by rw [h.zones]; omega)] at hm
        have e1 : i - (z.fs.heap.map Frame.bounds).length = 0 := by
          by_contra hc
          rw [List.getElem?_eq_none (by simp; simp at hc; omega)] at hb
          cases hb
        have e2 : i - z.zones.length = 0 := by rw [h.zones]; simpa using e1
        rw [e1] at hb; rw [e2] at hm
        simp only [List.getElem?_cons_zero, Option.some.injEq] at hb hm
        subst hb hm
        exact ⟨k, hps, congrArg some hpe⟩
    · intro i a b ha hb
      dsimp only at ha hb
      rw [h1] at ha hb
      by_cases hi : i + 1 < z.fs.heap.length
      · rw [List.getElem?_append_left (by simp; omega)] at ha
        rw [List.getElem?_append_left (by simpa using hi)] at hb
        exact h.linked i a b ha hb
      · rw [List.getElem?_append_right (by simp; omega)] at hb
        have e1 : i + 1 - (z.fs.heap.map Frame.bounds).length = 0 := by
          by_contra hc
          rw [List.getElem?_eq_none (by simp; simp at hc; omega)] at hb
          cases hb
        rw [e1] at hb
        simp only [List.getElem?_cons_zero, Option.some.injEq] at hb
        subst hb
        simp only [List.length_map] at e1
        have hlast : z.now = some a := by
          unfold ZFrameSet.now
          rw [List.getElem?_append_left (by simp; omega)] at ha
          rw [List.getLast?_eq_getElem?, List.length_map, ← ha]
          congr 1
          omega
        exact hnow a hlast
    · unfold ZFrameSet.now
      dsimp only
      rw [h1]; simp

theorem feedCreate_nd (fs : FrameSet) (c : Ctx) (tick : Tick) (ps : ℤ) (pe : Option ℤ) :
    (fs.feedCreate c tick ps pe).2 ≠ some .diverge := by
  intro h
  exact createFrame_nd ((feedCreate_agrees fs c tick ps pe).error h)

theorem create_nd (z : ZFrameSet) (c : Ctx) (tick : Tick) (ps : DT) (pe : Option DT) :
    (z.create c tick ps pe).2 ≠ some .diverge := feedCreate_nd _ _ _ _ _

theorem ZFrameSet.periodEnd_eq {offs : ℕ → ℤ} {z : ZFrameSet} {i n : ℕ} {f : Frame} {e : ℤ} (he : f.periodEnd = some e)
    (hn : z.zones[i]? = some n) : z.periodEnd offs i f = some (atZone offs n e) := by
  unfold ZFrameSet.periodEnd
  rw [he, hn]

/-- The end of a period that begins at a boundary. -/
theorem zoneEnd_grid {offs : ℕ → ℤ} {u : Unit'} {q : ℤ} (hT : Tiles u q) (n : ℕ) (k : ℤ) :
    zoneEnd offs u q (atZone offs n (grid u q k - offs n)) = atZone offs n (grid u q (k + 1) - offs n) := by
  unfold zoneEnd
  have : (atZone offs n (grid u q k - offs n)).wall = grid u q k := by unfold atZone; dsimp only; omega
  rw [this, frameEnd_grid hT]
  rfl

/-- The gap filling loop. -/
theorem ZInv.fill {offs : ℕ → ℤ} {u : Unit'} {q : ℤ} (hT : Tiles u q) (c : Ctx) {ps : DT} (hps : Proper offs ps) (fuel : ℕ) :
    ∀ {z : ZFrameSet}, ZInv offs u q z → (∀ b, z.now = some b → b.1 < ps.utc) →
    ZInv offs u q (ZFrameSet.fill offs c ps fuel z).1 ∧
      (∀ b, (ZFrameSet.fill offs c ps fuel z).1.now = some b → b.1 < ps.utc) ∧
      (z.now ≠ none → (ZFrameSet.fill offs c ps fuel z).1.now ≠ none) ∧
      ((ZFrameSet.fill offs c ps fuel z).2 = none →
        ∀ b, (ZFrameSet.fill offs c ps fuel z).1.now = some b → ∃ e, b.2 = some e ∧ ps.utc ≤ e) ∧
      ((∀ b e, z.now = some b → b.2 = some e → ps.utc - e ≤ fuel) → (ZFrameSet.fill offs c ps fuel z).2 ≠ some .diverge) := by
  induction fuel with
  | zero =>
    intro z hz hb
    unfold ZFrameSet.fill
    rcases hz.current with ⟨h1, h2, h3⟩ | ⟨i, f, n, k, h1, h2, h3, h4, h5, h6, h7⟩
    · rw [h2]
      dsimp only
      exact ⟨hz, hb, id, fun _ b hb => (by rw [h3] at hb; cases hb), fun _ h => (by cases h)⟩
    · rw [h4]
      dsimp only
      rw [ZFrameSet.periodEnd_eq h7 h3]
      dsimp only
      rw [(atZone_proper offs n _).lt hps]
      split_ifs with hlt
      · refine ⟨hz, hb, id, fun h => (by cases h), fun h => ?_⟩
        have := h _ _ h5 h7
        simp only [decide_eq_true_eq] at hlt
        unfold atZone at hlt
        dsimp only at hlt
        push_cast at this
        omega
      · refine ⟨hz, hb, id, fun _ b hbb => ?_, fun _ h => by cases h⟩
        rw [h5] at hbb
        cases hbb
        simp only [decide_eq_true_eq] at hlt
        exact ⟨_, h7, not_lt.mp hlt⟩
  | succ fuel ih =>
    intro z hz hb
    unfold ZFrameSet.fill
    rcases hz.current with ⟨h1, h2, h3⟩ | ⟨i, f, n, k, h1, h2, h3, h4, h5, h6, h7⟩
    · rw [h2]
      dsimp only
      exact ⟨hz, hb, id, fun _ b hb => (by rw [h3] at hb; cases hb), fun _ h => (by cases h)⟩
    · rw [h4]
      dsimp only
      rw [ZFrameSet.periodEnd_eq h7 h3]
      dsimp only
      rw [(atZone_proper offs n _).lt hps]
      split_ifs with hlt
      · simp only [decide_eq_true_eq] at hlt
        have hlt' : grid u q (k + 1) - offs n < ps.utc := hlt
        rw [hz.unit, hz.qty, zoneEnd_grid hT]
        have hgr : grid u q (k + 1) < grid u q (k + 1 + 1) := grid_strictMono hT (by omega)
        have hgr' : grid u q k < grid u q (k + 1) := grid_strictMono hT (by omega)
        obtain ⟨g1, g2⟩ := hz.create c f.last n (k + 1) (atZone offs n (grid u q (k + 1) - offs n))
          (atZone offs n (grid u q (k + 1 + 1) - offs n)) rfl rfl rfl (by
            intro b hbb
            rw [h5] at hbb
            cases hbb
            have e1 : (atZone offs n (grid u q (k + 1) - offs n)).utc = grid u q (k + 1) - offs n := rfl
            rw [e1]
            refine ⟨?_, _, h7, le_refl _⟩
            change f.periodStart < _
            omega)
        have hnd := create_nd z c f.last (atZone offs n (grid u q (k + 1) - offs n))
          (some (atZone offs n (grid u q (k + 1 + 1) - offs n)))
        have hb' : ∀ b, (z.create c f.last (atZone offs n (grid u q (k + 1) - offs n))
            (some (atZone offs n (grid u q (k + 1 + 1) - offs n)))).1.now = some b → b.1 < ps.utc := by
          intro b hbb
          rcases g2 with ⟨g2, _⟩ | g2
          · rw [g2] at hbb; exact hb b hbb
          · rw [g2] at hbb; cases hbb; exact hlt'
        rcases hx : z.create c f.last (atZone offs n (grid u q (k + 1) - offs n))
            (some (atZone offs n (grid u q (k + 1 + 1) - offs n))) with ⟨z', _ | e⟩
        · rw [hx] at g1 g2 hb'
          dsimp only at g1 g2 hb' ⊢
          have g3 : z'.now = some (grid u q (k + 1) - offs n, some (grid u q (k + 1 + 1) - offs n)) := by
            rcases g2 with ⟨_, e, he⟩ | g2
            · cases he
            · exact g2
          obtain ⟨r1, r2, r3, r4, r5⟩ := ih g1 hb'
          refine ⟨r1, r2, fun _ => r3 (by rw [g3]; exact Option.some_ne_none _), r4, fun h => r5 ?_⟩
          intro b e hbb he
          rw [g3] at hbb
          cases hbb
          cases he
          have := h _ _ h5 h7
          push_cast at this
          omega
        · rw [hx] at g1 g2 hb' hnd
          dsimp only at g1 g2 hb' hnd ⊢
          refine ⟨g1, hb', fun _ => ?_, fun h => (by cases h), fun _ => hnd⟩
          rcases g2 with ⟨g2, _⟩ | g2
          · rw [g2, h5]; exact Option.some_ne_none _
          · rw [g2]; exact Option.some_ne_none _
      · refine ⟨hz, hb, id, fun _ b hbb => ?_, fun _ h => by cases h⟩
        rw [h5] at hbb
        cases hbb
        simp only [decide_eq_true_eq] at hlt
        exact ⟨_, h7, not_lt.mp hlt⟩

/-- Starts of consecutive periods in different zones: a period that begins after the end of another one begins after its start. -/
theorem grid_starts {u : Unit'} {q : ℤ} (hT : Tiles u q) {k j o o' t : ℤ} (ho : |o| < dayUs) (ho' : |o'| < dayUs)
    (h1 : grid u q (k + 1) - o ≤ t) (h2 : t < grid u q (j + 1) - o') : grid u q k - o < grid u q j - o' := by
  have long : (u = .month ∨ u = .year) → ∀ i, 28 * dayUs ≤ grid u q (i + 1) - grid u q i := by
    have step : ∀ i, mfirst i + 28 ≤ mfirst (i + 1) := by
      intro i
      rw [mfirst_succ]
      have := (daysInMonth_pos (isLeap (i / 12)) (i % 12 + 1)).1
      omega
    have steps : ∀ i : ℤ, ∀ d : ℕ, mfirst i + 28 ≤ mfirst (i + (d + 1 : ℕ)) := by
      intro i d
      induction d with
      | zero => simpa using step i
      | succ d ih =>
        have := step (i + (d + 1 : ℕ))
        have e : i + ((d + 1 : ℕ) : ℤ) + 1 = i + ((d + 1 + 1 : ℕ) : ℤ) := by push_cast; ring
        rw [e] at this
        omega
    have any : ∀ i j : ℤ, i < j → mfirst i + 28 ≤ mfirst j := by
      intro i j hij
      have := steps i (j - i - 1).toNat
      have e : i + (((j - i - 1).toNat + 1 : ℕ) : ℤ) = j := by push_cast; omega
      rwa [e] at this
    intro hu i
    have hq := hT.1
    have hd : (0 : ℤ) < dayUs := by decide
    rcases hu with rfl | rfl
    · have := any (q * i) (q * (i + 1)) (by nlinarith)
      unfold grid
      dsimp only
      nlinarith
    · have := any (12 * (q * i)) (12 * (q * (i + 1))) (by nlinarith)
      unfold grid
      dsimp only
      nlinarith
  have cal : (u = .month ∨ u = .year) → grid u q k - o < grid u q j - o' := by
    intro hu
    have hd : (0 : ℤ) < dayUs := by decide
    rw [abs_lt] at ho ho'
    rcases lt_trichotomy j k with h | h | h
    · exfalso
      have a : grid u q (j + 1) ≤ grid u q k := (grid_strictMono hT).monotone (by omega)
      have b := long hu k
      linarith
    · subst h
      linarith
    · have a : grid u q (k + 1) ≤ grid u q j := (grid_strictMono hT).monotone (by omega)
      have b := long hu k
      linarith
  cases u
  · exact hT.2.elim
  · unfold grid at *; dsimp only at *; linarith
  · unfold grid at *; dsimp only at *; linarith
  · unfold grid at *; dsimp only at *; linarith
  · unfold grid at *; dsimp only at *
    have e1 : (q * (k + 1) + 1) * dayUs = (q * k + 1) * dayUs + q * dayUs := by ring
    have e2 : (q * (j + 1) + 1) * dayUs = (q * j + 1) * dayUs + q * dayUs := by ring
    linarith
  · unfold grid at *; dsimp only at *
    have e1 : (7 * (k + 1) + 1) * dayUs = (7 * k + 1) * dayUs + 7 * dayUs := by ring
    have e2 : (7 * (j + 1) + 1) * dayUs = (7 * j + 1) * dayUs + 7 * dayUs := by ring
    linarith
  · exact cal (.inl rfl)
  · exact cal (.inr rfl)

theorem zoneStart_ok {offs : ℕ → ℤ} {u : Unit'} {q : ℤ} (hT : Tiles u q) {d ps : DT} (hd : Proper offs d)
    (h : zoneStart offs u q d = .ok ps) :
    ∃ j, ps = atZone offs d.tz (grid u q j - offs d.tz) ∧ grid u q j - offs d.tz ≤ d.utc ∧ d.utc < grid u q (j + 1) - offs d.tz := by
  unfold zoneStart at h
  rcases hs : frameStart u q d.wall with e | s
  · rw [hs] at h; cases h
  · rw [hs] at h
    have e := frameStart_ok hT hs
    obtain ⟨g1, g2⟩ := gidx_spec hT d.wall
    refine ⟨gidx u q d.wall, ?_, ?_, ?_⟩
    · rw [← e]
      exact (Except.ok.inj h).symm
    · rw [hd] at g1 ⊢; omega
    · rw [hd] at g2 ⊢; omega

/-- A tick on a timed frame set with the invariant. -/
theorem ZInv.feed {offs : ℕ → ℤ} (ho : ∀ n, |offs n| < dayUs) {u : Unit'} {q : ℤ} (hT : Tiles u q) {z : ZFrameSet}
    (hz : ZInv offs u q z) (c : Ctx) {tick : Tick} (ht : Proper offs tick.dt) (hnow : ∀ b, z.now = some b → b.1 ≤ tick.dt.utc) :
    ZInv offs u q (z.feed offs c tick).1 ∧ (∀ b, (z.feed offs c tick).1.now = some b → b.1 ≤ tick.dt.utc) ∧
      ((z.feed offs c tick).2 = none →
        ∃ s e, (z.feed offs c tick).1.now = some (s, some e) ∧ s ≤ tick.dt.utc ∧ tick.dt.utc < e) ∧
      (z.feed offs c tick).2 ≠ some .diverge := by
  have hu : z.fs.unit ≠ .tick := by rw [hz.unit]; exact hT.ne_tick
  -- a new frame
  have new : ∀ (hstart : ∀ b j, z.now = some b → tick.dt.utc < grid u q (j + 1) - offs tick.dt.tz →
        b.1 < grid u q j - offs tick.dt.tz),
      ZInv offs u q (z.createTimed offs c tick).1 ∧ (∀ b, (z.createTimed offs c tick).1.now = some b → b.1 ≤ tick.dt.utc) ∧
      ((z.createTimed offs c tick).2 = none →
        ∃ s e, (z.createTimed offs c tick).1.now = some (s, some e) ∧ s ≤ tick.dt.utc ∧ tick.dt.utc < e) ∧
      (z.createTimed offs c tick).2 ≠ some .diverge := by
    intro hstart
    unfold ZFrameSet.createTimed
    rw [hz.unit, hz.qty]
    rcases hs : zoneStart offs u q tick.dt with e | ps
    · dsimp only
      refine ⟨hz, hnow, fun h => (by cases h), ?_⟩
      unfold zoneStart at hs
      rcases hf : frameStart u q tick.dt.wall with e' | s'
      · rw [hf] at hs
        cases hs
        intro hc
        cases hc
        unfold frameStart replaceFirst at hf
        rcases u <;> dsimp only at hf <;> (try split_ifs at hf) <;> cases hf
      · rw [hf] at hs; cases hs
    · obtain ⟨j, rfl, j1, j2⟩ := zoneStart_ok hT ht hs
      dsimp only
      have hb : ∀ b, z.now = some b → b.1 < (atZone offs tick.dt.tz (grid u q j - offs tick.dt.tz)).utc :=
        fun b hb => hstart b j hb j2
      obtain ⟨r1, r2, r3, r4, r5⟩ := hz.fill hT c (atZone_proper offs tick.dt.tz (grid u q j - offs tick.dt.tz))
        (fillFuel z.fs (atZone offs tick.dt.tz (grid u q j - offs tick.dt.tz)).utc) hb
      have hfuel : ∀ b e, z.now = some b → b.2 = some e →
          (atZone offs tick.dt.tz (grid u q j - offs tick.dt.tz)).utc - e ≤
            (fillFuel z.fs (atZone offs tick.dt.tz (grid u q j - offs tick.dt.tz)).utc : ℤ) := by
        intro b e hb he
        rcases hz.current with ⟨h1, h2, h3⟩ | ⟨i, f, n, k, h1, h2, h3, h4, h5, h6, h7⟩
        · rw [h3] at hb; cases hb
        · rw [h5] at hb
          cases hb
          have he' : f.periodEnd = some e := he
          unfold fillFuel
          rw [h4]
          dsimp only
          rw [he']
          exact Int.self_le_toNat _
      have r5 := r5 hfuel
      rcases hx : ZFrameSet.fill offs c (atZone offs tick.dt.tz (grid u q j - offs tick.dt.tz))
        (fillFuel z.fs (atZone offs tick.dt.tz (grid u q j - offs tick.dt.tz)).utc) z with ⟨z', _ | e⟩
      · rw [hx] at r1 r2 r3 r4 r5
        dsimp only at r1 r2 r3 r4 r5 ⊢
        rw [zoneEnd_grid hT]
        obtain ⟨g1, g2⟩ := r1.create c tick tick.dt.tz j
          (atZone offs tick.dt.tz (grid u q j - offs tick.dt.tz)) (atZone offs tick.dt.tz (grid u q (j + 1) - offs tick.dt.tz)) rfl rfl rfl
          (fun b hb => ⟨r2 b hb, r4 rfl b hb⟩)
        refine ⟨g1, ?_, ?_, create_nd _ _ _ _ _⟩
        · intro b hb
          rcases g2 with ⟨g2, _⟩ | g2
          · rw [g2] at hb
            have := r2 b hb
            change b.1 < grid u q j - offs tick.dt.tz at this
            omega
          · rw [g2] at hb; cases hb; exact j1
        · intro hn
          rcases g2 with ⟨_, e, he⟩ | g2
          · rw [hn] at he; cases he
          · exact ⟨_, _, g2, j1, j2⟩
      · rw [hx] at r1 r2 r3 r4 r5
        dsimp only at r1 r2 r3 r4 r5 ⊢
        refine ⟨r1, ?_, fun h => (by cases h), r5⟩
        intro b hb
        have := r2 b hb
        change b.1 < grid u q j - offs tick.dt.tz at this
        omega
  -- the same frame
  have same : ∀ s e, z.now = some (s, some e) → tick.dt.utc < e →
      ZInv offs u q (z.addToLast c tick).1 ∧ (∀ b, (z.addToLast c tick).1.now = some b → b.1 ≤ tick.dt.utc) ∧
      ((z.addToLast c tick).2 = none →
        ∃ s e, (z.addToLast c tick).1.now = some (s, some e) ∧ s ≤ tick.dt.utc ∧ tick.dt.utc < e) ∧
      (z.addToLast c tick).2 ≠ some .diverge := by
    intro s e hse hlt
    obtain ⟨b1, b2, b3, b4⟩ := feedLast_bounds z.fs c tick
    have hlen : (z.fs.feedLast c tick).1.heap.length = z.fs.heap.length := by simpa using congrArg List.length b1
    have hnow' : (z.addToLast c tick).1.now = z.now := by
      unfold ZFrameSet.now ZFrameSet.addToLast
      dsimp only
      rw [b1]
    refine ⟨⟨b3.trans hz.unit, b4.trans hz.qty, ?_, ?_, ?_, ?_⟩, ?_, ?_, ?_⟩
    · unfold ZFrameSet.addToLast
      exact hz.zones.trans hlen.symm
    · unfold ZFrameSet.addToLast
      dsimp only
      rw [b2, hz.last, hlen]
      have : (z.fs.feedLast c tick).1.heap = [] ↔ z.fs.heap = [] := by
        rw [← List.length_eq_zero_iff, ← List.length_eq_zero_iff, hlen]
      simp only [this]
    · unfold ZFrameSet.addToLast
      dsimp only
      rw [b1]
      exact hz.period
    · unfold ZFrameSet.addToLast
      dsimp only
      rw [b1]
      exact hz.linked
    · rw [hnow']; exact hnow
    · intro _
      rw [hnow']
      exact ⟨s, e, hse, hnow _ hse, hlt⟩
    · unfold ZFrameSet.addToLast
      dsimp only
      intro h
      have := (feedLast_agrees z.fs c tick).error h
      unfold FrameSet.addToLast at this
      split at this
      · cases this
      · exact nd_bind upsert_nd (by intro a; exact fun h => by cases h) this
  unfold ZFrameSet.feed
  rw [if_neg hu]
  unfold ZFrameSet.overTimed
  rcases hz.current with ⟨h1, h2, h3⟩ | ⟨i, f, n, k, h1, h2, h3, h4, h5, h6, h7⟩
  · rw [h2]
    dsimp only
    rw [if_pos rfl]
    exact new (fun b j hb _ => by rw [h3] at hb; cases hb)
  · rw [h4]
    dsimp only
    rw [ZFrameSet.periodEnd_eq h7 h3]
    dsimp only
    rw [ht.lt (atZone_proper offs n _)]
    split_ifs with hov
    · apply new
      intro b j hb hj
      rw [h5] at hb
      cases hb
      have hge : grid u q (k + 1) - offs n ≤ tick.dt.utc := by
        have : ¬ tick.dt.utc < (atZone offs n (grid u q (k + 1) - offs n)).utc := by
          intro hc; rw [decide_eq_true hc] at hov; cases hov
        exact not_lt.mp this
      have := grid_starts hT (ho n) (ho tick.dt.tz) hge hj
      change f.periodStart < _
      rw [h6]; exact this
    · apply same f.periodStart (grid u q (k + 1) - offs n) (by rw [h5, ← h7]; rfl)
      by_contra hc
      apply hov
      have hc' : ¬ tick.dt.utc < (atZone offs n (grid u q (k + 1) - offs n)).utc := hc
      rw [decide_eq_false hc']; rfl

/-! ## The last tick of the current frame -/

theorem feedOne_last (heap : List Frame) (id : ℕ) (tick : Tick) (mo : Bool) (f : Frame) (p : String × Indicator) :
    (feedOne heap id tick mo f p).1.last = f.last := by
  unfold feedOne
  rcases f.get p.1 with _ | v
  · dsimp only
    rcases p.2.build heap id f mo with e | nv <;> rfl
  · dsimp only
    rcases v.onNewTick heap f tick mo with e | v' <;> rfl

theorem feedInds_last (heap : List Frame) (id : ℕ) (tick : Tick) (mo : Bool) (d : Dict Indicator) : ∀ f : Frame,
    (feedInds heap id tick mo d f).1.last = f.last := by
  induction d with
  | nil => intro f; rfl
  | cons p d ih =>
    intro f
    unfold feedInds
    have h := feedOne_last heap id tick mo f p
    rcases hx : feedOne heap id tick mo f p with ⟨f', _ | e⟩ <;> rw [hx] at h
    · exact (ih f').trans h
    · exact h

theorem modify_last (l : List Frame) (i : ℕ) (g : Frame → Frame) (hg : ∀ f, (g f).last = f.last) :
    (l.modify i g).map Frame.last = l.map Frame.last := by
  apply List.ext_getElem?
  intro j
  rw [List.getElem?_map, List.getElem?_map, List.getElem?_modify]
  rcases l[j]? with _ | f
  · rfl
  · split_ifs
    · exact congrArg some (hg f)
    · rfl

theorem feedClean_last (max : ℤ) (l : List ℕ) : ∀ heap : List Frame,
    (feedClean max heap l).1.1.map Frame.last = heap.map Frame.last := by
  induction l with
  | nil => intro heap; rfl
  | cons a l ih =>
    intro heap
    rcases l with _ | ⟨d, rest⟩
    · rfl
    · unfold feedClean
      dsimp only
      split_ifs
      · rw [ih, modify_last _ _ _ (by intro f; rfl), modify_last _ _ _ (by intro f; rfl)]
      · rfl

theorem current_heap {fs : FrameSet} {i : ℕ} {f : Frame} (hc : fs.current = some (i, f)) :
    fs.frames.getLast? = some i ∧ fs.heap[i]? = some f := by
  unfold FrameSet.current at hc
  split at hc
  · cases hc
  · rename_i j hj
    rcases hh : fs.heap[j]? with _ | g
    · rw [hh] at hc; cases hc
    · rw [hh] at hc
      simp only [Option.map_some, Option.some.injEq, Prod.mk.injEq] at hc
      rw [← hc.1, ← hc.2]; exact ⟨hj, hh⟩

/-- The newest frame has the tick it was made of as its last one. -/
theorem feedCreate_last (fs : FrameSet) (c : Ctx) (tick : Tick) (ps : ℤ) (pe : Option ℤ)
    (h : (fs.feedCreate c tick ps pe).2 = none) : ∃ f, (fs.feedCreate c tick ps pe).1.current = some (fs.heap.length, f) ∧ f.last = tick := by
  have hl := feedInds_last fs.heap fs.heap.length tick c.marketOpen fs.indicators (Frame.fresh tick ps pe fs.frames.getLast?)
  unfold FrameSet.feedCreate at h ⊢
  dsimp only at h ⊢
  rw [upsert_eq] at h ⊢
  rcases hx : (feedInds fs.heap fs.heap.length tick c.marketOpen fs.indicators (Frame.fresh tick ps pe fs.frames.getLast?)).2 with _ | e
  · dsimp only
    have e1 := feedClean_last fs.maxFrames (fs.frames ++ [fs.heap.length]) (linkNext fs.heap fs.frames.getLast? fs.heap.length ++
      [(feedInds fs.heap fs.heap.length tick c.marketOpen fs.indicators (Frame.fresh tick ps pe fs.frames.getLast?)).1])
    have e2 := feedClean_getLast fs.maxFrames (fs.frames ++ [fs.heap.length]) (linkNext fs.heap fs.frames.getLast? fs.heap.length ++
      [(feedInds fs.heap fs.heap.length tick c.marketOpen fs.indicators (Frame.fresh tick ps pe fs.frames.getLast?)).1])
    have hlen : (linkNext fs.heap fs.frames.getLast? fs.heap.length).length = fs.heap.length := by
      simpa using congrArg List.length (linkNext_bounds fs.heap fs.frames.getLast? fs.heap.length)
    have e3 := congrArg (fun l : List Tick => l[fs.heap.length]?) e1
    simp only [List.getElem?_map] at e3
    rw [List.getElem?_append_right (by omega), hlen, Nat.sub_self] at e3
    simp only [List.getElem?_cons_zero, Option.map_some] at e3
    rw [hl] at e3
    rcases hh : (feedClean fs.maxFrames (linkNext fs.heap fs.frames.getLast? fs.heap.length ++
      [(feedInds fs.heap fs.heap.length tick c.marketOpen fs.indicators (Frame.fresh tick ps pe fs.frames.getLast?)).1])
        (fs.frames ++ [fs.heap.length])).1.1[fs.heap.length]? with _ | f
    · rw [hh] at e3; cases e3
    · rw [hh] at e3
      refine ⟨f, ?_, Option.some.inj e3⟩
      unfold FrameSet.current
      dsimp only
      rw [e2]
      simp only [List.getLast?_append, List.getLast?_singleton, Option.some_or]
      rw [hh]
      rfl
  · rw [hx] at h; cases h

theorem feedLast_last (fs : FrameSet) (c : Ctx) (tick : Tick) (i : ℕ) (f : Frame) (hc : fs.current = some (i, f)) :
    ∃ f', (fs.feedLast c tick).1.current = some (i, f') ∧ f'.last = tick := by
  obtain ⟨h1, h2⟩ := current_heap hc
  refine ⟨(feedInds fs.heap i tick c.marketOpen fs.indicators (f.track tick)).1, ?_, ?_⟩
  · unfold FrameSet.feedLast
    rw [hc]
    unfold FrameSet.current
    dsimp only
    rw [h1]
    dsimp only
    rw [List.getElem?_set_self (by exact (List.getElem?_eq_some_iff.mp h2).1)]
    rfl
  · rw [feedInds_last]
    unfold Frame.track
    dsimp only
    split_ifs <;> rfl

/-- A tick that raises nothing is the last tick of the current frame. -/
theorem zfeed_last {offs : ℕ → ℤ} {z : ZFrameSet} {c : Ctx} {tick : Tick} (h : (z.feed offs c tick).2 = none) :
    ∃ i f, (z.feed offs c tick).1.fs.current = some (i, f) ∧ f.last = tick := by
  have create : ∀ (z : ZFrameSet) (ps : DT) (pe : Option DT), (z.create c tick ps pe).2 = none →
      ∃ i f, (z.create c tick ps pe).1.fs.current = some (i, f) ∧ f.last = tick := by
    intro z ps pe hn
    obtain ⟨f, h1, h2⟩ := feedCreate_last z.fs c tick ps.utc (pe.map DT.utc) hn
    exact ⟨_, f, h1, h2⟩
  have last : z.fs.current ≠ none → ∃ i f, (z.addToLast c tick).1.fs.current = some (i, f) ∧ f.last = tick := by
    intro hn
    rcases hc : z.fs.current with _ | ⟨i, f⟩
    · exact absurd hc hn
    · obtain ⟨f', h1, h2⟩ := feedLast_last z.fs c tick i f hc
      exact ⟨i, f', h1, h2⟩
  revert h
  unfold ZFrameSet.feed
  split_ifs with hu ho
  · exact create _ _ _
  · intro _
    apply last
    intro hc
    apply ho
    unfold FrameSet.overTick
    rw [hc]
  · rcases hov : z.overTimed offs tick with e | over
    · intro h; cases h
    · dsimp only
      split_ifs with hb
      · unfold ZFrameSet.createTimed
        rcases zoneStart offs z.fs.unit z.fs.qty tick.dt with e | ps
        · intro h; cases h
        · dsimp only
          rcases ZFrameSet.fill offs c ps (fillFuel z.fs ps.utc) z with ⟨z', _ | e⟩
          · exact create _ _ _
          · intro h; cases h
      · intro _
        apply last
        intro hc
        unfold ZFrameSet.overTimed at hov
        rw [hc] at hov
        cases hov
        exact hb rfl

/-! ## The same frames in another zone -/

/-- Spec: the datetimes of a frame set expressed in zone `m`; instants are not changed. -/
def Spec.inZone (offs : ℕ → ℤ) (m : ℕ) (z : ZFrameSet) : ZFrameSet :=
  ⟨Spec.redateSet (fun d => atZone offs m d.utc) (fun t => t) z.fs, z.zones.map (fun _ => m)⟩

theorem inZone_create {offs : ℕ → ℤ} {m : ℕ} (z : ZFrameSet) (c : Ctx) (tick : Tick) (ps : DT) (pe : Option DT) :
    (Spec.inZone offs m z).create c (Spec.redateTick (fun d => atZone offs m d.utc) tick) (atZone offs m ps.utc)
        (pe.map (fun d => atZone offs m d.utc)) =
      (Spec.inZone offs m (z.create c tick ps pe).1, (z.create c tick ps pe).2) := by
  have hr := redate_feedCreate (g := fun d => atZone offs m d.utc) (b := fun t => t) z.fs c tick ps.utc (pe.map DT.utc)
  have hp : (pe.map (fun d => atZone offs m d.utc)).map DT.utc = (pe.map DT.utc).map (fun t => t) := by
    rcases pe with _ | d <;> rfl
  unfold ZFrameSet.create
  dsimp only
  rw [hp]
  have e : (Spec.inZone offs m z).fs.feedCreate c (Spec.redateTick (fun d => atZone offs m d.utc) tick) (atZone offs m ps.utc).utc
      ((pe.map DT.utc).map (fun t => t)) =
      Spec.redateFed (fun d => atZone offs m d.utc) (fun t => t) (z.fs.feedCreate c tick ps.utc (pe.map DT.utc)) := hr
  rw [e]
  have l1 : (Spec.inZone offs m z).fs.heap.length = z.fs.heap.length := List.length_map _
  have l2 : (Spec.redateFed (fun d => atZone offs m d.utc) (fun t => t) (z.fs.feedCreate c tick ps.utc (pe.map DT.utc))).1.heap.length =
      (z.fs.feedCreate c tick ps.utc (pe.map DT.utc)).1.heap.length := List.length_map _
  rw [l1, l2]
  unfold Spec.inZone Spec.redateFed
  dsimp only
  split_ifs
  · rw [List.map_append]; rfl
  · rfl

theorem inZone_current {offs : ℕ → ℤ} {m : ℕ} (z : ZFrameSet) : (Spec.inZone offs m z).fs.current =
    z.fs.current.map (fun p => (p.1, Spec.redateFrame (fun d => atZone offs m d.utc) (fun t => t) p.2)) := redate_current z.fs

theorem inZone_periodEnd {offs : ℕ → ℤ} {m : ℕ} (z : ZFrameSet) (i : ℕ) (f : Frame) :
    (Spec.inZone offs m z).periodEnd offs i (Spec.redateFrame (fun d => atZone offs m d.utc) (fun t => t) f) =
      (z.periodEnd offs i f).map (fun d => atZone offs m d.utc) := by
  unfold ZFrameSet.periodEnd
  have h1 : (Spec.redateFrame (fun d => atZone offs m d.utc) (fun t => t) f).periodEnd = f.periodEnd := by
    rcases hf : f.periodEnd with _ | e
    · unfold Spec.redateFrame; dsimp only; rw [hf]; rfl
    · unfold Spec.redateFrame; dsimp only; rw [hf]; rfl
  have h2 : (Spec.inZone offs m z).zones[i]? = (z.zones[i]?).map (fun _ => m) := List.getElem?_map ..
  rw [h1, h2]
  rcases f.periodEnd with _ | e
  · rfl
  · rcases z.zones[i]? with _ | n <;> rfl

theorem inZone_addToLast {offs : ℕ → ℤ} {m : ℕ} (z : ZFrameSet) (c : Ctx) (tick : Tick) :
    (Spec.inZone offs m z).addToLast c (Spec.redateTick (fun d => atZone offs m d.utc) tick) =
      (Spec.inZone offs m (z.addToLast c tick).1, (z.addToLast c tick).2) := by
  have h := redate_feedLast (g := fun d => atZone offs m d.utc) (b := fun t => t) z.fs c tick
  unfold ZFrameSet.addToLast
  have e : (Spec.inZone offs m z).fs.feedLast c (Spec.redateTick (fun d => atZone offs m d.utc) tick) =
      Spec.redateFed (fun d => atZone offs m d.utc) (fun t => t) (z.fs.feedLast c tick) := h
  rw [e]
  rfl

/-- Spec: two offsets with the same period boundaries: seconds, minutes or hours, and offsets that differ by whole periods. -/
def Spec.SameBoundaries (u : Unit') (q o o' : ℤ) : Prop :=
  match u with
  | .tick => True
  | .second => ∃ k, o = o' + k * (q * 1000000)
  | .minute => ∃ k, o = o' + k * (q * (60 * 1000000))
  | .hour => ∃ k, o = o' + k * (q * (60 * (60 * 1000000)))
  | _ => False

theorem sameBoundaries_grid {u : Unit'} {q o o' : ℤ} (hu : u ≠ .tick) (h : Spec.SameBoundaries u q o o') :
    ∃ L k, o = o' + k * L ∧ (∀ j, grid u q j = j * L) ∧ (∀ w, shiftUnit u q w = w + L) := by
  cases u
  · exact absurd rfl hu
  · obtain ⟨k, hk⟩ := h; exact ⟨q * secUs, k, hk, fun _ => rfl, fun _ => rfl⟩
  · obtain ⟨k, hk⟩ := h; exact ⟨q * minUs, k, hk, fun _ => rfl, fun _ => rfl⟩
  · obtain ⟨k, hk⟩ := h; exact ⟨q * hourUs, k, hk, fun _ => rfl, fun _ => rfl⟩
  all_goals exact h.elim

/-- Ends of periods that begin at the same instant. -/
theorem inZone_end {offs : ℕ → ℤ} {m n : ℕ} {u : Unit'} {q : ℤ} (hu : u ≠ .tick) (h : Spec.SameBoundaries u q (offs n) (offs m))
    (t : ℤ) : zoneEnd offs u q (atZone offs m t) = atZone offs m (zoneEnd offs u q (atZone offs n t)).utc := by
  obtain ⟨L, k, h1, h2, h3⟩ := sameBoundaries_grid hu h
  unfold zoneEnd frameEnd
  rw [if_neg hu, if_neg hu, h3, h3]
  unfold tableZone atZone
  simp only [DT.mk.injEq, and_true]
  omega

/-- Starts of the periods that contain the same instant. -/
theorem inZone_start {offs : ℕ → ℤ} {m : ℕ} {u : Unit'} {q : ℤ} (hT : Tiles u q) {d : DT} (hd : Proper offs d)
    (h : Spec.SameBoundaries u q (offs d.tz) (offs m)) :
    ∃ ps, zoneStart offs u q d = .ok ps ∧ Proper offs ps ∧ ps.tz = d.tz ∧
      zoneStart offs u q (atZone offs m d.utc) = .ok (atZone offs m ps.utc) := by
  obtain ⟨L, k, h1, h2, h3⟩ := sameBoundaries_grid hT.ne_tick h
  have hok : ∀ w, StartOk u q w := by
    intro w
    cases u <;> first | exact trivial | exact h.elim
  refine ⟨atZone offs d.tz (grid u q (gidx u q d.wall) - offs d.tz), ?_, rfl, rfl, ?_⟩
  · unfold zoneStart
    rw [frameStart_grid hT (hok _)]
    rfl
  · unfold zoneStart
    rw [frameStart_grid hT (hok _)]
    have hg : gidx u q (atZone offs m d.utc).wall = gidx u q d.wall - k := by
      obtain ⟨g1, g2⟩ := gidx_spec hT d.wall
      have hw : d.wall = d.utc + (offs m + k * L) := by rw [hd, h1]
      rw [h2] at g1 g2
      have e : (atZone offs m d.utc).wall = d.wall - k * L := by unfold atZone; dsimp only; linarith
      rw [e]
      apply gidx_unique hT
      · rw [h2, sub_mul]; linarith
      · rw [h2, add_mul, sub_mul]; rw [add_mul] at g2; linarith
    rw [hg]
    unfold atZone
    simp only [bind, Except.bind, Except.ok.injEq, DT.mk.injEq, and_true]
    rw [h2, h2]
    constructor <;> linarith

theorem create_unit (z : ZFrameSet) (c : Ctx) (tick : Tick) (ps : DT) (pe : Option DT) :
    (z.create c tick ps pe).1.fs.unit = z.fs.unit ∧ (z.create c tick ps pe).1.fs.qty = z.fs.qty := by
  rcases feedCreate_bounds z.fs c tick ps.utc (pe.map DT.utc) with ⟨h, _⟩ | ⟨_, _, h1, h2⟩
  · have e : (z.create c tick ps pe).1.fs = z.fs := h
    rw [e]; exact ⟨rfl, rfl⟩
  · exact ⟨h1, h2⟩

theorem periodEnd_proper {offs : ℕ → ℤ} {z : ZFrameSet} {i : ℕ} {f : Frame} {pe : DT} (h : z.periodEnd offs i f = some pe) :
    pe = atZone offs pe.tz pe.utc := by
  unfold ZFrameSet.periodEnd at h
  split at h
  · cases h; rfl
  · cases h

theorem inZone_fill {offs : ℕ → ℤ} {m : ℕ} {u : Unit'} {q : ℤ} (hu : u ≠ .tick) (hs : ∀ n, Spec.SameBoundaries u q (offs n) (offs m))
    (c : Ctx) {ps : DT} (hps : Proper offs ps) (fuel : ℕ) : ∀ z : ZFrameSet, z.fs.unit = u → z.fs.qty = q →
    ZFrameSet.fill offs c (atZone offs m ps.utc) fuel (Spec.inZone offs m z) =
      (Spec.inZone offs m (ZFrameSet.fill offs c ps fuel z).1, (ZFrameSet.fill offs c ps fuel z).2) ∧
      (ZFrameSet.fill offs c ps fuel z).1.fs.unit = u ∧ (ZFrameSet.fill offs c ps fuel z).1.fs.qty = q := by
  induction fuel with
  | zero =>
    intro z hz1 hz2
    unfold ZFrameSet.fill
    rw [inZone_current]
    rcases z.fs.current with _ | ⟨i, f⟩
    · exact ⟨rfl, hz1, hz2⟩
    · simp only [Option.map_some]
      rw [inZone_periodEnd]
      rcases hp : z.periodEnd offs i f with _ | pe
      · exact ⟨rfl, hz1, hz2⟩
      · simp only [Option.map_some]
        have e := periodEnd_proper hp
        have h1 : (atZone offs m pe.utc).lt (atZone offs m ps.utc) = pe.lt ps := by
          rw [(atZone_proper offs m _).lt (atZone_proper offs m _)]
          have : Proper offs pe := by rw [e]; rfl
          rw [this.lt hps]
          rfl
        rw [h1]
        split_ifs <;> exact ⟨rfl, hz1, hz2⟩
  | succ fuel ih =>
    intro z hz1 hz2
    unfold ZFrameSet.fill
    rw [inZone_current]
    rcases z.fs.current with _ | ⟨i, f⟩
    · exact ⟨rfl, hz1, hz2⟩
    · simp only [Option.map_some]
      rw [inZone_periodEnd]
      rcases hp : z.periodEnd offs i f with _ | pe
      · exact ⟨rfl, hz1, hz2⟩
      · simp only [Option.map_some]
        have e := periodEnd_proper hp
        have h1 : (atZone offs m pe.utc).lt (atZone offs m ps.utc) = pe.lt ps := by
          rw [(atZone_proper offs m _).lt (atZone_proper offs m _)]
          have : Proper offs pe := by rw [e]; rfl
          rw [this.lt hps]
          rfl
        rw [h1]
        split_ifs with hlt
        · have e1 : zoneEnd offs (Spec.inZone offs m z).fs.unit (Spec.inZone offs m z).fs.qty (atZone offs m pe.utc) =
              atZone offs m (zoneEnd offs z.fs.unit z.fs.qty pe).utc := by
            have : (Spec.inZone offs m z).fs.unit = u ∧ (Spec.inZone offs m z).fs.qty = q := ⟨hz1, hz2⟩
            rw [this.1, this.2, hz1, hz2, inZone_end (n := pe.tz) hu (hs pe.tz), ← e]
          have hc := inZone_create (offs := offs) (m := m) z c f.last pe (some (zoneEnd offs z.fs.unit z.fs.qty pe))
          rw [e1]
          have hl : (Spec.redateFrame (fun d => atZone offs m d.utc) (fun t => t) f).last =
            Spec.redateTick (fun d => atZone offs m d.utc) f.last := rfl
          rw [hl]
          simp only [Option.map_some] at hc
          rw [hc]
          obtain ⟨u1, u2⟩ := create_unit z c f.last pe (some (zoneEnd offs z.fs.unit z.fs.qty pe))
          rcases hx : z.create c f.last pe (some (zoneEnd offs z.fs.unit z.fs.qty pe)) with ⟨z', _ | err⟩
          · rw [hx] at u1 u2
            exact ih z' (u1.trans hz1) (u2.trans hz2)
          · rw [hx] at u1 u2
            exact ⟨rfl, u1.trans hz1, u2.trans hz2⟩
        · exact ⟨rfl, hz1, hz2⟩

theorem inZone_fuel {offs : ℕ → ℤ} {m : ℕ} (z : ZFrameSet) (t : ℤ) : fillFuel (Spec.inZone offs m z).fs t = fillFuel z.fs t := by
  unfold fillFuel
  rw [inZone_current]
  rcases z.fs.current with _ | ⟨i, f⟩
  · rfl
  · simp only [Option.map_some]
    have h1 : (Spec.redateFrame (fun d => atZone offs m d.utc) (fun t => t) f).periodEnd = f.periodEnd := by
      rcases hf : f.periodEnd with _ | e
      · unfold Spec.redateFrame; dsimp only; rw [hf]; rfl
      · unfold Spec.redateFrame; dsimp only; rw [hf]; rfl
    rw [h1]

/-- A tick taken in any zone with the same boundaries makes the same frames. -/
theorem inZone_feed {offs : ℕ → ℤ} {m : ℕ} {u : Unit'} {q : ℤ} (hT : u ≠ .tick → Tiles u q)
    (hs : ∀ n, Spec.SameBoundaries u q (offs n) (offs m)) (z : ZFrameSet) (hz1 : z.fs.unit = u) (hz2 : z.fs.qty = q)
    {c : Ctx} {tick : Tick} (ht : Proper offs tick.dt) (mo : Bool) (d : Zone)
    (hc : c = ⟨d, some (mo, ordOf tick.dt.wall)⟩) :
    (Spec.inZone offs m z).feed offs ⟨d, some (mo, ordOf (atZone offs m tick.dt.utc).wall)⟩
        (Spec.redateTick (fun d => atZone offs m d.utc) tick) =
      (Spec.inZone offs m (z.feed offs c tick).1, (z.feed offs c tick).2) ∧
    (z.feed offs c tick).1.fs.unit = u ∧ (z.feed offs c tick).1.fs.qty = q := by
  subst hc
  have same : ∀ {day day' : ℤ} (z : ZFrameSet) (tick : Tick) (ps : DT) (pe : Option DT),
      z.create ⟨d, some (mo, day)⟩ tick ps pe = z.create ⟨d, some (mo, day')⟩ tick ps pe := fun _ _ _ _ => rfl
  have samef : ∀ {day day' : ℤ} (ps : DT) (n : ℕ) (z : ZFrameSet),
      ZFrameSet.fill offs ⟨d, some (mo, day)⟩ ps n z = ZFrameSet.fill offs ⟨d, some (mo, day')⟩ ps n z := by
    intro day day' ps n
    induction n with
    | zero => intro z; unfold ZFrameSet.fill; rfl
    | succ n ih =>
      intro z
      unfold ZFrameSet.fill
      rcases z.fs.current with _ | ⟨i, f⟩
      · rfl
      · dsimp only
        rcases z.periodEnd offs i f with _ | pe
        · rfl
        · dsimp only
          rw [same (day := day) (day' := day')]
          rcases z.create ⟨d, some (mo, day')⟩ f.last pe (some (zoneEnd offs z.fs.unit z.fs.qty pe)) with ⟨z', _ | e⟩
          · dsimp only; rw [ih]
          · rfl
  have last : (Spec.inZone offs m z).addToLast ⟨d, some (mo, ordOf (atZone offs m tick.dt.utc).wall)⟩
        (Spec.redateTick (fun d => atZone offs m d.utc) tick) =
      (Spec.inZone offs m (z.addToLast ⟨d, some (mo, ordOf tick.dt.wall)⟩ tick).1,
        (z.addToLast ⟨d, some (mo, ordOf tick.dt.wall)⟩ tick).2) ∧
      (z.addToLast ⟨d, some (mo, ordOf tick.dt.wall)⟩ tick).1.fs.unit = u ∧
      (z.addToLast ⟨d, some (mo, ordOf tick.dt.wall)⟩ tick).1.fs.qty = q := by
    obtain ⟨_, _, b3, b4⟩ := feedLast_bounds z.fs ⟨d, some (mo, ordOf tick.dt.wall)⟩ tick
    refine ⟨?_, b3.trans hz1, b4.trans hz2⟩
    rw [← inZone_addToLast]
    rfl
  unfold ZFrameSet.feed
  have hu : (Spec.inZone offs m z).fs.unit = z.fs.unit := rfl
  rw [hu]
  split_ifs with h1 h2 h3 h4
  · obtain ⟨u1, u2⟩ := create_unit z ⟨d, some (mo, ordOf tick.dt.wall)⟩ tick tick.dt none
    refine ⟨?_, u1.trans hz1, u2.trans hz2⟩
    rw [← inZone_create]
    rfl
  · exfalso
    apply h3
    unfold FrameSet.overTick at h2 ⊢
    rw [inZone_current] at h2
    rcases hc : z.fs.current with _ | ⟨i, f⟩
    · rfl
    · rw [hc] at h2
      simp only [Option.map_some] at h2
      simp only [Bool.or_eq_true, decide_eq_true_eq] at h2 ⊢
      rcases h2 with h2 | h2
      · exact .inl h2
      · exact absurd h2 (lt_irrefl _)
  · exfalso
    apply h2
    unfold FrameSet.overTick at h4 ⊢
    rw [inZone_current]
    rcases hc : z.fs.current with _ | ⟨i, f⟩
    · rfl
    · rw [hc] at h4
      simp only [Option.map_some]
      simp only [Bool.or_eq_true, decide_eq_true_eq] at h4 ⊢
      rcases h4 with h4 | h4
      · exact .inl h4
      · exact absurd h4 (lt_irrefl _)
  · exact last
  · have hne : u ≠ .tick := by rw [← hz1]; exact h1
    have hover : (Spec.inZone offs m z).overTimed offs (Spec.redateTick (fun d => atZone offs m d.utc) tick) =
        z.overTimed offs tick := by
      unfold ZFrameSet.overTimed
      rw [inZone_current]
      rcases z.fs.current with _ | ⟨i, f⟩
      · rfl
      · simp only [Option.map_some]
        rw [inZone_periodEnd]
        rcases hp : z.periodEnd offs i f with _ | pe
        · rfl
        · simp only [Option.map_some]
          have e := periodEnd_proper hp
          have hpe : Proper offs pe := by rw [e]; rfl
          rw [ht.lt hpe]
          have : (Spec.redateTick (fun d => atZone offs m d.utc) tick).dt = atZone offs m tick.dt.utc := rfl
          rw [this, (atZone_proper offs m _).lt (atZone_proper offs m _)]
          rfl
    rw [hover]
    rcases z.overTimed offs tick with e | over
    · exact ⟨rfl, hz1, hz2⟩
    · dsimp only
      split_ifs with hov
      · unfold ZFrameSet.createTimed
        have hq : (Spec.inZone offs m z).fs.qty = z.fs.qty := rfl
        rw [hu, hq, hz1, hz2]
        obtain ⟨ps, p1, p2, p3, p4⟩ := inZone_start (m := m) (hT hne) ht (hs tick.dt.tz)
        have : (Spec.redateTick (fun d => atZone offs m d.utc) tick).dt = atZone offs m tick.dt.utc := rfl
        rw [this, p4, p1]
        dsimp only
        rw [inZone_fuel]
        obtain ⟨f1, f2, f3⟩ := inZone_fill hne hs ⟨d, some (mo, ordOf tick.dt.wall)⟩ p2
          (fillFuel z.fs (atZone offs m ps.utc).utc) z hz1 hz2
        rw [samef (day' := ordOf tick.dt.wall), f1]
        have hfu : fillFuel z.fs (atZone offs m ps.utc).utc = fillFuel z.fs ps.utc := rfl
        rw [hfu] at f2 f3 ⊢
        rcases hx : ZFrameSet.fill offs ⟨d, some (mo, ordOf tick.dt.wall)⟩ ps (fillFuel z.fs ps.utc) z with ⟨z', _ | err⟩
        · rw [hx] at f2 f3
          dsimp only at f2 f3 ⊢
          obtain ⟨u1, u2⟩ := create_unit z' ⟨d, some (mo, ordOf tick.dt.wall)⟩ tick ps (some (zoneEnd offs u q ps))
          refine ⟨?_, u1.trans f2, u2.trans f3⟩
          rw [← inZone_create, Option.map_some]
          have e := inZone_end (m := m) (n := ps.tz) hne (hs ps.tz) ps.utc
          have eps : atZone offs ps.tz ps.utc = ps := by
            unfold atZone
            have := p2
            unfold Proper at this
            rcases ps with ⟨a, b, c⟩
            dsimp only at this ⊢
            rw [this]
          rw [eps] at e
          rw [e]
          rfl
        · rw [hx] at f2 f3
          exact ⟨rfl, f2, f3⟩
      · exact last

/-! ## Whether the market is open matters to indicators of the market hours only -/

theorem create_freed {z : ZFrameSet} (hz : FreedSet z.fs) (c c' : Ctx) (tick : Tick) (ps : DT) (pe : Option DT) :
    z.create c tick ps pe = z.create c' tick ps pe ∧ FreedSet (z.create c tick ps pe).1.fs := by
  obtain ⟨h1, h2⟩ := feedCreate_freed hz c c' tick ps.utc (pe.map DT.utc)
  refine ⟨?_, h2⟩
  unfold ZFrameSet.create
  rw [h1]

theorem fill_freed {offs : ℕ → ℤ} (c c' : Ctx) (ps : DT) (n : ℕ) : ∀ {z : ZFrameSet}, FreedSet z.fs →
    ZFrameSet.fill offs c ps n z = ZFrameSet.fill offs c' ps n z ∧ FreedSet (ZFrameSet.fill offs c ps n z).1.fs := by
  induction n with
  | zero =>
    intro z hz
    unfold ZFrameSet.fill
    rcases z.fs.current with _ | ⟨i, f⟩
    · exact ⟨rfl, hz⟩
    · dsimp only
      rcases z.periodEnd offs i f with _ | pe
      · exact ⟨rfl, hz⟩
      · dsimp only
        split_ifs <;> exact ⟨rfl, hz⟩
  | succ n ih =>
    intro z hz
    unfold ZFrameSet.fill
    rcases z.fs.current with _ | ⟨i, f⟩
    · exact ⟨rfl, hz⟩
    · dsimp only
      rcases z.periodEnd offs i f with _ | pe
      · exact ⟨rfl, hz⟩
      · dsimp only
        split_ifs
        · obtain ⟨h1, h2⟩ := create_freed hz c c' f.last pe (some (zoneEnd offs z.fs.unit z.fs.qty pe))
          rw [← h1]
          rcases hx : z.create c f.last pe (some (zoneEnd offs z.fs.unit z.fs.qty pe)) with ⟨z', _ | e⟩
          · rw [hx] at h2; exact ih h2
          · rw [hx] at h2; exact ⟨rfl, h2⟩
        · exact ⟨rfl, hz⟩

theorem zfeed_freed {offs : ℕ → ℤ} {z : ZFrameSet} (hz : FreedSet z.fs) {c c' : Ctx} {day : ℤ} {mo mo' : Bool}
    (hc : c.epic = some (mo, day)) (hc' : c'.epic = some (mo', day)) (tick : Tick) :
    z.feed offs c tick = z.feed offs c' tick ∧ FreedSet (z.feed offs c tick).1.fs := by
  have last : z.addToLast c tick = z.addToLast c' tick ∧ FreedSet (z.addToLast c tick).1.fs := by
    obtain ⟨h1, h2⟩ := feedLast_freed hz c c' tick
    refine ⟨?_, h2⟩
    unfold ZFrameSet.addToLast
    rw [h1]
  have hov : z.fs.overTick c tick = z.fs.overTick c' tick := by
    unfold FrameSet.overTick
    rw [hc, hc']
  unfold ZFrameSet.feed
  rw [← hov]
  split_ifs with h1 h2
  · exact create_freed hz c c' tick _ _
  · exact last
  · rcases z.overTimed offs tick with e | over
    · exact ⟨rfl, hz⟩
    · dsimp only
      split_ifs
      · unfold ZFrameSet.createTimed
        rcases zoneStart offs z.fs.unit z.fs.qty tick.dt with e | ps
        · exact ⟨rfl, hz⟩
        · dsimp only
          obtain ⟨f1, f2⟩ := fill_freed (offs := offs) c c' ps (fillFuel z.fs ps.utc) hz
          rw [← f1]
          rcases hx : ZFrameSet.fill offs c ps (fillFuel z.fs ps.utc) z with ⟨z', _ | e⟩
          · rw [hx] at f2
            exact create_freed f2 c c' tick _ _
          · rw [hx] at f2
            exact ⟨rfl, f2⟩
      · exact last

/-! ## Without assignments: bounds as wall clocks -/

/-- Spec: the frame set with the bounds of its frames as wall clocks of zone `n`. -/
def Spec.walls (offs : ℕ → ℤ) (n : ℕ) (z : ZFrameSet) : FrameSet := Spec.redateSet (fun d => d) (fun t => t + offs n) z.fs

/-- All frames are in zone `n`. -/
def OneZone (n : ℕ) (z : ZFrameSet) : Prop := z.zones = List.replicate z.fs.heap.length n

theorem OneZone.get {n : ℕ} {z : ZFrameSet} (h : OneZone n z) {i : ℕ} {f : Frame} (hf : z.fs.heap[i]? = some f) :
    z.zones[i]? = some n := by
  have hi := (List.getElem?_eq_some_iff.mp hf).1
  rw [h, List.getElem?_replicate, if_pos hi]

theorem walls_create {offs : ℕ → ℤ} {n : ℕ} {z : ZFrameSet} (hz : OneZone n z) (c : Ctx) (tick : Tick) {ps : ℤ} {pe : Option ℤ} :
    (Spec.walls offs n z).feedCreate c tick (ps + offs n) (pe.map (fun t => t + offs n)) =
      (Spec.walls offs n (z.create c tick (atZone offs n ps) (pe.map (atZone offs n))).1,
        (z.create c tick (atZone offs n ps) (pe.map (atZone offs n))).2) ∧
      OneZone n (z.create c tick (atZone offs n ps) (pe.map (atZone offs n))).1 := by
  have hr := redate_feedCreate (g := fun d => d) (b := fun t => t + offs n) z.fs c tick ps pe
  have hp : (pe.map (atZone offs n)).map DT.utc = pe := by rcases pe with _ | d <;> rfl
  have e : z.create c tick (atZone offs n ps) (pe.map (atZone offs n)) =
      (⟨(z.fs.feedCreate c tick ps pe).1, if z.fs.heap.length < (z.fs.feedCreate c tick ps pe).1.heap.length then z.zones ++ [n]
        else z.zones⟩, (z.fs.feedCreate c tick ps pe).2) := by
    unfold ZFrameSet.create
    dsimp only
    rw [hp]
    rfl
  rw [e]
  refine ⟨hr, ?_⟩
  unfold OneZone
  dsimp only
  rcases feedCreate_bounds z.fs c tick ps pe with ⟨h, _⟩ | ⟨h, _⟩
  · have hl : ¬ z.fs.heap.length < (z.fs.feedCreate c tick ps pe).1.heap.length := by rw [h]; omega
    rw [if_neg hl, h]
    exact hz
  · have hl : (z.fs.feedCreate c tick ps pe).1.heap.length = z.fs.heap.length + 1 := by simpa using congrArg List.length h
    rw [if_pos (by omega), hl, hz, List.replicate_succ']

theorem walls_current {offs : ℕ → ℤ} {n : ℕ} (z : ZFrameSet) : (Spec.walls offs n z).current =
    z.fs.current.map (fun p => (p.1, Spec.redateFrame (fun d => d) (fun t => t + offs n) p.2)) := redate_current z.fs

theorem walls_end {offs : ℕ → ℤ} {n : ℕ} (u : Unit') (q t : ℤ) :
    zoneEnd offs u q (atZone offs n t) = atZone offs n (frameEnd (tableZone offs n) u q (t + offs n) - offs n) := rfl

theorem walls_fill {offs : ℕ → ℤ} {n : ℕ} (e : Option (Bool × ℤ)) (ps : ℤ) (fuel : ℕ) : ∀ {z : ZFrameSet}, OneZone n z →
    feedFill ⟨tableZone offs n, e⟩ (ps + offs n) fuel (Spec.walls offs n z) =
      (Spec.walls offs n (ZFrameSet.fill offs ⟨tableZone offs n, e⟩ (atZone offs n ps) fuel z).1,
        (ZFrameSet.fill offs ⟨tableZone offs n, e⟩ (atZone offs n ps) fuel z).2) ∧
      OneZone n (ZFrameSet.fill offs ⟨tableZone offs n, e⟩ (atZone offs n ps) fuel z).1 := by
  induction fuel with
  | zero =>
    intro z hz
    unfold ZFrameSet.fill feedFill
    rw [walls_current]
    rcases hc : z.fs.current with _ | ⟨i, f⟩
    · exact ⟨rfl, hz⟩
    · simp only [Option.map_some]
      have hn := hz.get (current_heap hc).2
      have hfe : (Spec.redateFrame (fun d => d) (fun t => t + offs n) f).periodEnd = f.periodEnd.map (fun t => t + offs n) := rfl
      rw [hfe]
      rcases he : f.periodEnd with _ | pe
      · unfold ZFrameSet.periodEnd
        rw [he]
        exact ⟨rfl, hz⟩
      · rw [ZFrameSet.periodEnd_eq he hn]
        simp only [Option.map_some]
        rw [(atZone_proper offs n _).lt (atZone_proper offs n _)]
        simp only [decide_eq_true_eq]
        have : (pe + offs n < ps + offs n) ↔ (atZone offs n pe).utc < (atZone offs n ps).utc := by
          unfold atZone; dsimp only; omega
        simp only [this]
        split_ifs <;> exact ⟨rfl, hz⟩
  | succ fuel ih =>
    intro z hz
    unfold ZFrameSet.fill feedFill
    rw [walls_current]
    rcases hc : z.fs.current with _ | ⟨i, f⟩
    · exact ⟨rfl, hz⟩
    · simp only [Option.map_some]
      have hn := hz.get (current_heap hc).2
      have hfe : (Spec.redateFrame (fun d => d) (fun t => t + offs n) f).periodEnd = f.periodEnd.map (fun t => t + offs n) := rfl
      rw [hfe]
      rcases he : f.periodEnd with _ | pe
      · unfold ZFrameSet.periodEnd
        rw [he]
        exact ⟨rfl, hz⟩
      · rw [ZFrameSet.periodEnd_eq he hn]
        simp only [Option.map_some]
        rw [(atZone_proper offs n _).lt (atZone_proper offs n _)]
        simp only [decide_eq_true_eq]
        have : (pe + offs n < ps + offs n) ↔ (atZone offs n pe).utc < (atZone offs n ps).utc := by
          unfold atZone; dsimp only; omega
        simp only [this]
        split_ifs with hlt
        · obtain ⟨c1, c2⟩ := walls_create (offs := offs) hz ⟨tableZone offs n, e⟩ f.last (ps := pe)
            (pe := some (frameEnd (tableZone offs n) z.fs.unit z.fs.qty (pe + offs n) - offs n))
          simp only [Option.map_some, sub_add_cancel] at c1 c2
          rw [walls_end]
          have hl : (Spec.redateFrame (fun d => d) (fun t => t + offs n) f).last = f.last := rfl
          have hu : (Spec.walls offs n z).unit = z.fs.unit := rfl
          have hq : (Spec.walls offs n z).qty = z.fs.qty := rfl
          rw [hl, hu, hq, c1]
          rcases hx : z.create ⟨tableZone offs n, e⟩ f.last (atZone offs n pe)
            (some (atZone offs n (frameEnd (tableZone offs n) z.fs.unit z.fs.qty (pe + offs n) - offs n))) with ⟨z', _ | err⟩
          · rw [hx] at c2; exact ih c2
          · rw [hx] at c2; exact ⟨rfl, c2⟩
        · exact ⟨rfl, hz⟩

/-- A tick in a run without assignments: the model with zones is the one without. -/
theorem walls_feed {offs : ℕ → ℤ} {n : ℕ} (e : Option (Bool × ℤ)) {z : ZFrameSet} (hz : OneZone n z) {tick : Tick}
    (ht : tick.dt = atZone offs n tick.dt.utc) :
    (Spec.walls offs n z).feed ⟨tableZone offs n, e⟩ tick =
      (Spec.walls offs n (z.feed offs ⟨tableZone offs n, e⟩ tick).1, (z.feed offs ⟨tableZone offs n, e⟩ tick).2) ∧
      OneZone n (z.feed offs ⟨tableZone offs n, e⟩ tick).1 := by
  have hw : tick.dt.wall = tick.dt.utc + offs n := by rw [ht]; rfl
  have last : (Spec.walls offs n z).feedLast ⟨tableZone offs n, e⟩ tick =
      (Spec.walls offs n (z.addToLast ⟨tableZone offs n, e⟩ tick).1, (z.addToLast ⟨tableZone offs n, e⟩ tick).2) ∧
      OneZone n (z.addToLast ⟨tableZone offs n, e⟩ tick).1 := by
    refine ⟨redate_feedLast (g := fun d => d) (b := fun t => t + offs n) z.fs ⟨tableZone offs n, e⟩ tick, ?_⟩
    have hl : (z.fs.feedLast ⟨tableZone offs n, e⟩ tick).1.heap.length = z.fs.heap.length := by
      simpa using congrArg List.length (feedLast_bounds z.fs ⟨tableZone offs n, e⟩ tick).1
    unfold OneZone ZFrameSet.addToLast
    dsimp only
    rw [hl]
    exact hz
  have hu : (Spec.walls offs n z).unit = z.fs.unit := rfl
  have hq : (Spec.walls offs n z).qty = z.fs.qty := rfl
  have hot : (Spec.walls offs n z).overTick ⟨tableZone offs n, e⟩ tick = z.fs.overTick ⟨tableZone offs n, e⟩ tick := by
    unfold FrameSet.overTick
    rw [walls_current]
    rcases z.fs.current with _ | ⟨i, f⟩ <;> rfl
  have hov : (Spec.walls offs n z).overTimed tick = z.overTimed offs tick := by
    unfold FrameSet.overTimed ZFrameSet.overTimed
    rw [walls_current]
    rcases hc : z.fs.current with _ | ⟨i, f⟩
    · rfl
    · simp only [Option.map_some]
      have hn := hz.get (current_heap hc).2
      have hfe : (Spec.redateFrame (fun d => d) (fun t => t + offs n) f).periodEnd = f.periodEnd.map (fun t => t + offs n) := rfl
      rw [hfe]
      rcases he : f.periodEnd with _ | pe
      · unfold ZFrameSet.periodEnd
        rw [he]
        rfl
      · rw [ZFrameSet.periodEnd_eq he hn]
        simp only [Option.map_some]
        have hp : Proper offs tick.dt := by rw [ht]; rfl
        rw [hp.lt (atZone_proper offs n _), hw]
        have : (pe + offs n ≤ tick.dt.utc + offs n) ↔ ¬ tick.dt.utc < (atZone offs n pe).utc := by
          unfold atZone; dsimp only; omega
        simp only [this, decide_not]
  have hfu : ∀ t, fillFuel (Spec.walls offs n z) (t + offs n) = fillFuel z.fs t := by
    intro t
    unfold fillFuel
    rw [walls_current]
    rcases z.fs.current with _ | ⟨i, f⟩
    · rfl
    · simp only [Option.map_some]
      have hfe : (Spec.redateFrame (fun d => d) (fun t => t + offs n) f).periodEnd = f.periodEnd.map (fun t => t + offs n) := rfl
      rw [hfe]
      rcases f.periodEnd with _ | pe
      · rfl
      · simp only [Option.map_some]
        congr 1
        omega
  unfold FrameSet.feed ZFrameSet.feed
  rw [hu, hot, hov]
  split_ifs with h1 h2
  · obtain ⟨c1, c2⟩ := walls_create (offs := offs) hz ⟨tableZone offs n, e⟩ tick (ps := tick.dt.utc) (pe := none)
    rw [← ht] at c1 c2
    rw [hw]
    exact ⟨c1, c2⟩
  · exact last
  · rcases z.overTimed offs tick with err | over
    · exact ⟨rfl, hz⟩
    · dsimp only
      split_ifs with hb
      · unfold FrameSet.feedTimed ZFrameSet.createTimed zoneStart
        rw [hu, hq]
        have htz : tick.dt.tz = n := by rw [ht]; rfl
        rcases frameStart z.fs.unit z.fs.qty tick.dt.wall with err | w
        · exact ⟨rfl, hz⟩
        · simp only [bind, Except.bind]
          rw [htz]
          have f := walls_fill (offs := offs) (n := n) e (w - offs n) (fillFuel z.fs (w - offs n)) hz
          have g := hfu (w - offs n)
          rw [sub_add_cancel] at f g
          have eu : (atZone offs n (w - offs n)).utc = w - offs n := rfl
          rw [g, eu, f.1]
          rcases hx : ZFrameSet.fill offs ⟨tableZone offs n, e⟩ (atZone offs n (w - offs n)) (fillFuel z.fs (w - offs n)) z
            with ⟨z', _ | err⟩
          · have f2 := f.2
            rw [hx] at f2
            dsimp only at f2 ⊢
            obtain ⟨c1, c2⟩ := walls_create (offs := offs) f2 ⟨tableZone offs n, e⟩ tick (ps := w - offs n)
              (pe := some (frameEnd (tableZone offs n) z.fs.unit z.fs.qty w - offs n))
            simp only [Option.map_some, sub_add_cancel] at c1 c2
            rw [walls_end, sub_add_cancel]
            exact ⟨c1, c2⟩
          · have f2 := f.2
            rw [hx] at f2
            exact ⟨rfl, f2⟩
      · exact last

end
end Estrade
