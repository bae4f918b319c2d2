import Verif.Lemmas.Running
import Verif.Props.Timeframes
import Verif.Float64

/-!
# C07 - C13: frame sets (estrade/graph/frame_set.py)

`Feeds u q m fs h` (History.lean): the frame set has received the history `h`, in any interleaving with
indicator registrations.  `fs.view` is the list `frames` of the Python object.
-/

set_option linter.style.haveILetI false
set_option linter.unusedSectionVars false
set_option autoImplicit false

namespace Estrade

section
variable [Arith]

/-- Spec: ticks arrive in order of their local datetimes. -/
def Spec.InOrder (h : List HEv) : Prop := h.Pairwise (fun a b => a.tick.dt.wall ≤ b.tick.dt.wall)

/-- Spec: of the aligned instants after some tick of the history, up to the first one after the tick `e`, the clock
changes of the zone `e` was delivered in skip none. -/
def Spec.NoneSkipped (u : Unit') (q : ℤ) (h : List HEv) : Prop := ∀ e ∈ h, ∀ x ∈ h, ∀ n, Spec.Aligned u q n →
  x.tick.dt.wall < n → (∀ a, Spec.Aligned u q a → e.tick.dt.wall < a → n ≤ a) → e.ctx.zone.resolve n = n

theorem keeps_of_noneSkipped {u : Unit'} {q : ℤ} (hT : Tiles u q) {h : List HEv} (hz : Spec.NoneSkipped u q h) :
    GridKept u q h := by
  intro e he x hx k h1 h2
  refine hz e he x hx _ ((aligned_iff_grid hT _).mpr ⟨k, rfl⟩) ?_ ?_
  · exact (gidx_spec hT x.wall).2.trans_le ((grid_strictMono hT).monotone (by omega))
  · intro a ha hlt
    obtain ⟨j, rfl⟩ := (aligned_iff_grid hT _).mp ha
    apply (grid_strictMono hT).monotone
    have := (grid_strictMono hT).lt_iff_lt.mp ((gidx_spec hT e.wall).1.trans_lt hlt)
    omega

/-- Zones that keep all aligned instants skip none. -/
theorem noneSkipped_of_keepsGrid {u : Unit'} {q : ℤ} {h : List HEv} (hz : ∀ e ∈ h, Spec.KeepsGrid e.ctx.zone u q) :
    Spec.NoneSkipped u q h := fun e he _ _ n hn _ _ => hz e he n hn

/-- Spec: `shift` in these zones only moves wall clocks forward (dateutil's `resolve_imaginary`). -/
def Spec.ForwardZones (h : List HEv) : Prop := ∀ e ∈ h, ∀ x, x ≤ e.ctx.zone.resolve x

/-! ## C07 -/

theorem feeds_in_frame {u : Unit'} {q m : ℤ} (hT : Tiles u q) (hm : 1 ≤ m) {fs : FrameSet} {h : List HEv}
    (hF : Feeds u q m fs h) (ho : Spec.InOrder h) (hz : Spec.ForwardZones h) :
    ∀ e, h.getLast? = some e → ∃ B a pe, Built u q m fs (B ++ [a]) ∧ a.start ≤ e.tick.dt.wall ∧
      a.stop = some pe ∧ e.tick.dt.wall < pe ∧ (a.evs.map Ev.tick).getLast? = some e.tick := by
  induction hF with
  | new => intro e he; cases he
  | ind i _ ih =>
    intro e he
    obtain ⟨B, a, pe, hB, h2⟩ := ih ho hz e he
    exact ⟨B, a, pe, Built.ind i hB, h2⟩
  | @tick fs fs' h c t hF hok ih =>
    intro e he
    rw [List.getLast?_append, List.getLast?_singleton] at he
    cases he
    simp only
    have newcase : ∀ A, Built u q m fs A → (∃ F ps pe,
        Built u q m fs' (A ++ F ++ [⟨ps, pe, [⟨t, c.marketOpen, fs.indicators⟩]⟩]) ∧
        (u ≠ .tick → frameStart u q t.dt.wall = .ok ps ∧ pe = some (frameEnd c.zone u q ps))) →
        ∃ B a pe, Built u q m fs' (B ++ [a]) ∧ a.start ≤ t.dt.wall ∧
          a.stop = some pe ∧ t.dt.wall < pe ∧ (a.evs.map Ev.tick).getLast? = some t := by
      rintro A hB ⟨F, ps, pe, hB', hx⟩
      obtain ⟨e1, e2⟩ := hx hT.ne_tick
      have e1 := frameStart_ok hT e1
      obtain ⟨g1, g2⟩ := gidx_spec hT t.dt.wall
      refine ⟨_, _, _, hB', by rw [e1]; exact g1, e2, ?_, rfl⟩
      rw [e1, frameEnd_grid hT]
      exact g2.trans_le (hz ⟨c, t, fs.indicators⟩ (by simp) _)
    rcases hl : h.getLast? with _ | l
    · obtain ⟨A, hB, hA⟩ := feeds_built hm hF
      have : A = [] := hA.mp (by simpa using hl)
      subst this
      rcases step_built hm hB hok with hnew | ⟨B, a, e, -⟩
      · exact newcase _ hB hnew
      · simp at e
    · obtain ⟨B, a, pe, hB, g1, g2, g3, g4⟩ := ih (List.pairwise_append.mp ho).1
        (fun e he => hz e (by simp [he])) l hl
      have hlt : l.tick.dt.wall ≤ t.dt.wall :=
        (List.pairwise_append.mp ho).2.2 l (List.mem_of_getLast? hl) ⟨c, t, fs.indicators⟩ (by simp)
      rcases step_built hm hB hok with hnew | ⟨B', a', e, hB', hx⟩
      · exact newcase _ hB hnew
      · obtain ⟨rfl, e2⟩ := List.append_inj' e rfl
        cases e2
        obtain ⟨pe', h1, h2⟩ := hx hT.ne_tick
        exact ⟨B, _, pe', hB', g1.trans hlt, h1, h2, by simp⟩

/-- C07: after a tick is accepted, it is the last tick of the current frame and the frame's period contains
its datetime (for every zone, DST included). -/
theorem C07_tick_in_current_frame (u : Unit') (q m : ℤ) (ha : Spec.Accepted u q) (hm : 1 ≤ m)
    (fs : FrameSet) (h : List HEv) (e : HEv) (hF : Feeds u q m fs (h ++ [e]))
    (ho : Spec.InOrder (h ++ [e])) (hz : Spec.ForwardZones (h ++ [e])) :
    ∃ f, fs.view.getLast? = some f ∧ f.last = e.tick ∧ f.periodStart ≤ e.tick.dt.wall ∧
      ∃ pe, f.periodEnd = some pe ∧ e.tick.dt.wall < pe := by
  obtain ⟨B, a, pe, hB, h1, h2, h3, h4⟩ := feeds_in_frame (accepted_tiles ha) hm hF ho hz e (by simp)
  obtain ⟨f, g1, g2, -⟩ := (hB.rep hm).view_last (by rw [hB.fields.2.2]; exact hm)
  refine ⟨f, g1, ?_, by rw [g2.start]; exact h1, pe, by rw [g2.stop]; exact h2, h3⟩
  have := g2.sum.last
  rw [h4] at this
  exact (Option.some.inj this).symm

/-! ## C08 -/

theorem timedAF_get {u : Unit'} {q : ℤ} {h : List HEv} {a b : HEv} (ha : h.head? = some a)
    (hb : h.getLast? = some b) {j : ℕ} {x : AF} (hx : (timedAF u q h)[j]? = some x) :
    (j : ℤ) ≤ gidx u q b.wall - gidx u q a.wall ∧
    x = periodAF h (grid u q (gidx u q a.wall + j)) (grid u q (gidx u q a.wall + j + 1)) := by
  unfold timedAF at hx
  rw [ha, hb] at hx
  simp only [List.getElem?_map] at hx
  obtain ⟨i, hi, rfl⟩ := Option.map_eq_some_iff.mp hx
  obtain ⟨h1, h2⟩ := List.getElem?_eq_some_iff.mp hi
  simp only [List.length_range, List.getElem_range] at h1 h2
  subst h2
  exact ⟨by omega, rfl⟩

theorem timed_view {u : Unit'} {q m : ℤ} (hT : Tiles u q) (hm : 1 ≤ m) {fs : FrameSet} {h : List HEv}
    (hF : Feeds u q m fs h) (ho : Spec.InOrder h) (hz : Spec.NoneSkipped u q h) {a b : HEv}
    (ha : h.head? = some a) (hb : h.getLast? = some b) {j : ℕ} {f : Frame} (hf : fs.view[j]? = some f) :
    ∃ k, k = gidx u q a.wall + (((timedAF u q h).length - m.toNat + j : ℕ) : ℤ) ∧ k ≤ gidx u q b.wall ∧
      Core (periodAF h (grid u q k) (grid u q (k + 1))) f := by
  have hB := feeds_timed hT hm hF ho (keeps_of_noneSkipped hT hz)
  obtain ⟨x, hx, hc⟩ := (hB.rep hm).view_core hf
  rw [hB.fields.2.2] at hx
  obtain ⟨h1, rfl⟩ := timedAF_get ha hb hx
  exact ⟨_, rfl, by omega, hc⟩

theorem feeds_ne {u : Unit'} {q m : ℤ} (hm : 1 ≤ m) {fs : FrameSet} {h : List HEv}
    (hF : Feeds u q m fs h) {j : ℕ} {f : Frame} (hf : fs.view[j]? = some f) :
    ∃ a b, h.head? = some a ∧ h.getLast? = some b := by
  obtain ⟨A, hB, hA⟩ := feeds_built hm hF
  obtain ⟨x, hx, -⟩ := (hB.rep hm).view_core hf
  have : A ≠ [] := by rintro rfl; simp at hx
  have hne : h ≠ [] := fun h0 => this (hA.mp h0)
  exact ⟨h.head hne, h.getLast hne, List.head?_eq_some_head hne, List.getLast?_eq_some_getLast hne⟩

theorem grid_next {u : Unit'} {q : ℤ} (hT : Tiles u q) (k : ℤ) : Spec.Aligned u q (grid u q (k + 1)) ∧
    grid u q k < grid u q (k + 1) ∧ ∀ a, Spec.Aligned u q a → grid u q k < a → grid u q (k + 1) ≤ a := by
  refine ⟨(aligned_iff_grid hT _).mpr ⟨_, rfl⟩, grid_strictMono hT (by omega), ?_⟩
  intro a ha hlt
  obtain ⟨j, rfl⟩ := (aligned_iff_grid hT _).mp ha
  have := (grid_strictMono hT).lt_iff_lt.mp hlt
  exact (grid_strictMono hT).monotone (by omega)

/-- C08: periods of neighbouring frames in memory touch, and every period is a timeframe of the set. -/
theorem C08_frames_contiguous (u : Unit') (q m : ℤ) (ha : Spec.Accepted u q) (hm : 1 ≤ m)
    (fs : FrameSet) (h : List HEv) (hF : Feeds u q m fs h)
    (ho : Spec.InOrder h) (hz : Spec.NoneSkipped u q h) :
    (∀ f ∈ fs.view, Spec.Aligned u q f.periodStart ∧ ∃ e, f.periodEnd = some e ∧ Spec.Aligned u q e ∧
      f.periodStart < e ∧ ∀ a, Spec.Aligned u q a → f.periodStart < a → e ≤ a) ∧
    (∀ (i : ℕ) (f g : Frame), fs.view[i]? = some f → fs.view[i + 1]? = some g →
      f.periodEnd = some g.periodStart) := by
  have hT := accepted_tiles ha
  constructor
  · intro f hf
    obtain ⟨j, hj⟩ := List.mem_iff_getElem?.mp hf
    obtain ⟨a, b, h1, h2⟩ := feeds_ne hm hF hj
    obtain ⟨k, -, -, hc⟩ := timed_view hT hm hF ho hz h1 h2 hj
    have hs : f.periodStart = grid u q k := hc.start
    have he : f.periodEnd = some (grid u q (k + 1)) := hc.stop
    rw [hs, he]
    exact ⟨(aligned_iff_grid hT _).mpr ⟨k, rfl⟩, _, rfl, grid_next hT k⟩
  · intro i f g hf hg
    obtain ⟨a, b, h1, h2⟩ := feeds_ne hm hF hf
    obtain ⟨k, hk, -, hc⟩ := timed_view hT hm hF ho hz h1 h2 hf
    obtain ⟨k', hk', -, hc'⟩ := timed_view hT hm hF ho hz h1 h2 hg
    have : k' = k + 1 := by rw [hk, hk']; push_cast; ring
    subst this
    rw [hc.stop, hc'.start]; rfl

/-! ## C09 -/

/-- Spec: the ticks of a history whose local datetime is in `[s, e)`. -/
def Spec.ticksIn (h : List HEv) (s e : ℤ) : List Tick :=
  (h.map HEv.tick).filter (fun t => decide (s ≤ t.dt.wall) && decide (t.dt.wall < e))

/-- Spec: what the frame of the period `[s, e)` must hold. -/
structure Spec.PeriodFrame (h : List HEv) (s e : ℤ) (f : Frame) : Prop where
  start : f.periodStart = s
  stop : f.periodEnd = some e
  busy : Spec.ticksIn h s e ≠ [] →
    f.nbTicks = (Spec.ticksIn h s e).length ∧ Spec.Summary (Spec.ticksIn h s e) f.first f.high f.low f.last
  idle : Spec.ticksIn h s e = [] →
    f.nbTicks = 1 ∧ f.first = f.last ∧ f.high = f.last ∧ f.low = f.last ∧
    ((h.map HEv.tick).filter (fun t => decide (t.dt.wall < s))).getLast? = some f.last

theorem ticksIn_eq (h : List HEv) (s e : ℤ) : Spec.ticksIn h s e = (inside h s e).map HEv.tick := by
  unfold Spec.ticksIn inside HEv.wall
  rw [List.filter_map]; rfl

theorem period_frame {h : List HEv} {s e : ℤ} {f : Frame} (hc : Core (periodAF h s e) f) :
    Spec.PeriodFrame h s e f := by
  refine ⟨hc.start, hc.stop, ?_, ?_⟩
  · intro hne
    rw [ticksIn_eq] at hne ⊢
    have h1 := hc.count
    have h2 := hc.sum
    have hi : inside h s e ≠ [] := fun h0 => hne (by rw [h0]; rfl)
    simp only [periodAF, if_neg hi] at h1 h2
    rw [List.map_map] at h2
    rw [h1]
    exact ⟨by simp, h2⟩
  · intro hem
    rw [ticksIn_eq, List.map_eq_nil_iff] at hem
    have h1 := hc.count
    have h2 := hc.sum
    simp only [periodAF, if_pos hem] at h1 h2
    split at h2
    · rename_i p n hp hn
      rw [hp, hn] at h1
      simp only [List.map_cons, List.map_nil] at h2
      have e1 : f.first = p.tick := (Option.some.inj h2.first).symm
      have e2 : f.last = p.tick := (Option.some.inj h2.last).symm
      have e3 : f.high = p.tick := List.mem_singleton.mp h2.high_mem
      have e4 : f.low = p.tick := List.mem_singleton.mp h2.low_mem
      refine ⟨by simpa using h1, by rw [e1, e2], by rw [e3, e2], by rw [e4, e2], ?_⟩
      rw [e2, List.filter_map, List.getLast?_map]
      have : h.filter ((fun t : Tick => decide (t.dt.wall < s)) ∘ HEv.tick) =
          h.filter (fun x => decide (x.wall < s)) := rfl
      rw [this, hp]; rfl
    · have := h2.first
      simp at this

/-- The first part of C09 in full: every frame in memory is the frame of one period of the timeframe, in all
zones whose `shift` only moves wall clocks forward. -/
def Spec.C09 : Prop := ∀ (u : Unit') (q m : ℤ) (fs : FrameSet) (h : List HEv), Spec.Accepted u q → 1 ≤ m →
  Feeds u q m fs h → Spec.InOrder h → Spec.ForwardZones h →
    ∀ f ∈ fs.view, ∃ s e, Spec.Aligned u q s ∧ Spec.Aligned u q e ∧ s < e ∧
      (∀ a, Spec.Aligned u q a → s < a → e ≤ a) ∧ Spec.PeriodFrame h s e f

/-- C09, partial (no aligned instant of the history is skipped by a clock change): the frames in memory are the latest `m` of the consecutive periods from the period of the first
tick to that of the last one, each holding exactly its ticks. -/
theorem C09_frames_are_periods_partial (u : Unit') (q m : ℤ) (ha : Spec.Accepted u q) (hm : 1 ≤ m)
    (fs : FrameSet) (h : List HEv) (hF : Feeds u q m fs h)
    (ho : Spec.InOrder h) (hz : Spec.NoneSkipped u q h) (first last : HEv)
    (hf : h.head? = some first) (hl : h.getLast? = some last) :
    (∀ f ∈ fs.view, ∃ s e, Spec.Aligned u q s ∧ Spec.Aligned u q e ∧ s < e ∧
      (∀ a, Spec.Aligned u q a → s < a → e ≤ a) ∧ Spec.PeriodFrame h s e f) ∧
    (∀ (i : ℕ) (f g : Frame), fs.view[i]? = some f → fs.view[i + 1]? = some g →
      f.periodEnd = some g.periodStart) ∧
    (∃ f e, fs.view.getLast? = some f ∧ f.periodEnd = some e ∧
      f.periodStart ≤ last.tick.dt.wall ∧ last.tick.dt.wall < e) ∧
    (∃ f e, fs.view.head? = some f ∧ f.periodEnd = some e ∧ first.tick.dt.wall < e ∧
      (f.periodStart ≤ first.tick.dt.wall ∧ (fs.view.length : ℤ) ≤ m ∨
        first.tick.dt.wall < f.periodStart ∧ (fs.view.length : ℤ) = m)) := by
  have hT := accepted_tiles ha
  have hB := feeds_timed hT hm hF ho (keeps_of_noneSkipped hT hz)
  have hR := hB.rep hm
  have hM : fs.maxFrames = m := hB.fields.2.2
  have hle : first.wall ≤ last.wall := Sorted.le_last ho hl first (List.mem_of_head? hf)
  have hgi := gidx_mono hT hle
  have hlen : (timedAF u q h).length = (gidx u q last.wall - gidx u q first.wall + 1).toNat := by
    unfold timedAF; rw [hf, hl]; simp
  have hvl := hR.view_length
  rw [hM] at hvl
  refine ⟨?_, (C08_frames_contiguous u q m ha hm fs h hF ho hz).2,
    ?_, ?_⟩
  · intro f hfm
    obtain ⟨j, hj⟩ := List.mem_iff_getElem?.mp hfm
    obtain ⟨k, -, -, hc⟩ := timed_view hT hm hF ho hz hf hl hj
    refine ⟨_, _, (aligned_iff_grid hT _).mpr ⟨k, rfl⟩, (aligned_iff_grid hT _).mpr ⟨k + 1, rfl⟩,
      grid_strictMono hT (by omega), ?_, period_frame hc⟩
    intro a hal hlt
    obtain ⟨j, rfl⟩ := (aligned_iff_grid hT _).mp hal
    have := (grid_strictMono hT).lt_iff_lt.mp hlt
    exact (grid_strictMono hT).monotone (by omega)
  · have hpos : 0 < fs.view.length := by omega
    have hget : fs.view[fs.view.length - 1]? = some fs.view[fs.view.length - 1] :=
      List.getElem?_eq_getElem _
    obtain ⟨k, hk, -, hc⟩ := timed_view hT hm hF ho hz hf hl hget
    have hk : k = gidx u q last.wall := by omega
    subst hk
    obtain ⟨g1, g2⟩ := gidx_spec hT last.wall
    exact ⟨_, _, by rw [List.getLast?_eq_getElem?]; exact hget, hc.stop, by rw [hc.start]; exact g1, g2⟩
  · have hpos : 0 < fs.view.length := by omega
    have hget : fs.view[0]? = some fs.view[0] := List.getElem?_eq_getElem _
    obtain ⟨k, hk, hkl, hc⟩ := timed_view hT hm hF ho hz hf hl hget
    obtain ⟨g1, g2⟩ := gidx_spec hT first.wall
    refine ⟨_, _, by rw [List.head?_eq_getElem?]; exact hget, hc.stop, ?_, ?_⟩
    · exact g2.trans_le ((grid_strictMono hT).monotone (by omega))
    · rw [hc.start]
      by_cases hc2 : (timedAF u q h).length ≤ m.toNat
      · left
        have : k = gidx u q first.wall := by omega
        subst this
        exact ⟨g1, by omega⟩
      · right
        refine ⟨g2.trans_le ((grid_strictMono hT).monotone (by omega)), by omega⟩

/-! ## C10 -/

/-- Spec: the `k`-th block of `n` consecutive ticks. -/
def Spec.tickBlock (h : List HEv) (n k : ℕ) : List Tick := ((h.map HEv.tick).drop (k * n)).take n

/-- Spec: the frames of a TICK set are the latest `m` of the blocks of `n` ticks. -/
def Spec.TickBlocks (h : List HEv) (n : ℕ) (m : ℤ) (view : List Frame) : Prop :=
  ∃ N : ℕ, h.length ≤ N * n ∧ (h ≠ [] → (N - 1) * n < h.length ∧ 1 ≤ N) ∧ (h = [] → N = 0) ∧
    view.length = min N m.toNat ∧
    ∀ (j : ℕ) (f : Frame), view[j]? = some f →
      f.periodEnd = none ∧ f.nbTicks = (Spec.tickBlock h n (N - view.length + j)).length ∧
      Spec.Summary (Spec.tickBlock h n (N - view.length + j)) f.first f.high f.low f.last ∧
      f.periodStart = f.first.dt.wall

/-- Spec: deliveries by an epic: when a frame set gets a tick, `epic.last_tick` is already that tick
(epic.py:250-253; proved of the epic model in `C57`). -/
def Spec.FromEpic (h : List HEv) : Prop := ∀ e ∈ h, ∃ b, e.ctx.epic = some (b, ordOf e.tick.dt.wall)

/-- C10 without the day split: exact blocks of `n` ticks. -/
theorem C10_tick_blocks_partial (q m : ℤ) (hq : 1 ≤ q) (hm : 1 ≤ m) (fs : FrameSet) (h : List HEv)
    (hF : Feeds .tick q m fs h) (ha : Spec.FromEpic h) : Spec.TickBlocks h q.toNat m fs.view := by
  have hB := feeds_tick hq hm hF ha
  have hR := hB.rep hm
  have hM : fs.maxFrames = m := hB.fields.2.2
  have hn : 0 < q.toNat := by omega
  have hlen : (tickAF q.toNat h).length = (h.length + q.toNat - 1) / q.toNat := by simp [tickAF]
  have hvl := hR.view_length
  rw [hM] at hvl
  have hd1 : (h.length + q.toNat - 1) / q.toNat * q.toNat ≤ h.length + q.toNat - 1 :=
    Nat.div_mul_le_self _ _
  have hd2 : h.length + q.toNat - 1 < ((h.length + q.toNat - 1) / q.toNat + 1) * q.toNat := by
    rw [← Nat.div_lt_iff_lt_mul hn]; omega
  rw [← hlen] at hd1 hd2
  generalize hN : (tickAF q.toNat h).length = N at *
  have hx : (N + 1) * q.toNat = N * q.toNat + q.toNat := by ring
  refine ⟨N, by omega, ?_, ?_, hvl, ?_⟩
  · intro hne
    have hpos : 0 < h.length := List.length_pos_iff.mpr hne
    have h1 : 1 ≤ N := by
      by_contra hc
      have : N = 0 := by omega
      subst this
      omega
    obtain ⟨k, rfl⟩ : ∃ k, N = k + 1 := ⟨N - 1, by omega⟩
    have : (k + 1) * q.toNat = k * q.toNat + q.toNat := by ring
    exact ⟨by simp only [Nat.add_sub_cancel]; omega, h1⟩
  · intro h0
    subst h0
    rw [hlen]
    exact Nat.div_eq_of_lt (by simp; omega)
  · intro j f hf
    obtain ⟨a, ha', hc⟩ := hR.view_core hf
    rw [hM, hN] at ha'
    have hj : j < fs.view.length := (List.getElem?_eq_some_iff.mp hf).1
    have hidx : N - m.toNat + j = N - fs.view.length + j := by omega
    unfold tickAF at ha'
    rw [List.getElem?_map] at ha'
    obtain ⟨i, hi, rfl⟩ := Option.map_eq_some_iff.mp ha'
    have hi' : i = N - m.toNat + j := by
      obtain ⟨hlt, h2⟩ := List.getElem?_eq_some_iff.mp hi
      rw [List.getElem_range] at h2
      exact h2.symm
    rw [hi', hidx] at hc
    have eb : Spec.tickBlock h q.toNat (N - fs.view.length + j) =
        (block q.toNat h (N - fs.view.length + j)).map HEv.tick := by
      unfold Spec.tickBlock block
      rw [List.map_take, List.map_drop]
    have h3 := hc.sum
    have h4 := hc.count
    simp only [blockAF, List.map_map, List.length_map] at h3 h4
    have h3' : Spec.Summary ((block q.toNat h (N - fs.view.length + j)).map HEv.tick)
        f.first f.high f.low f.last := h3
    refine ⟨hc.stop, by rw [eb, List.length_map]; exact h4, by rw [eb]; exact h3', ?_⟩
    rw [hc.start]
    have := h3'.first
    rw [List.head?_map] at this
    obtain ⟨e, he, he'⟩ := Option.map_eq_some_iff.mp this
    simp only [blockAF, he, Option.map_some, Option.getD_some]
    rw [← he']; rfl

/-- C10, the clause that fails: a tick dated after the previous one opens a new frame. -/
def Spec.DaySplit : Prop := ∀ (q m : ℤ) (fs : FrameSet) (h : List HEv) (a b : HEv), 1 ≤ q → 1 ≤ m →
  Feeds .tick q m fs (h ++ [a, b]) → Spec.FromEpic (h ++ [a, b]) →
  ordOf a.tick.dt.wall < ordOf b.tick.dt.wall → ∃ f, fs.view.getLast? = some f ∧ f.nbTicks = 1

theorem feeds_tick_exists (q m : ℤ) (hm : 1 ≤ m) (l : List (Ctx × Tick)) :
    ∃ fs, fs.indicators = [] ∧ Feeds .tick q m fs (l.map (fun p => ⟨p.1, p.2, []⟩)) := by
  induction l using List.reverseRecOn with
  | nil => exact ⟨_, rfl, Feeds.new⟩
  | append_singleton l p ih =>
    obtain ⟨fs, hi, hF⟩ := ih
    obtain ⟨A, hB, -⟩ := feeds_built hm hF
    have : ∃ fs', fs.onNewTick p.1 p.2 = .ok fs' ∧ fs'.indicators = [] := by
      unfold FrameSet.onNewTick
      rw [if_pos hB.fields.1]
      split_ifs
      · obtain ⟨fs', h⟩ := createFrame_noind (fs := fs) (by rw [hB.fields.2.2]; exact hm) hi p.1 p.2
          p.2.dt.wall none
        exact ⟨fs', h, by rw [createFrame_fields h]; exact hi⟩
      · obtain ⟨fs', h⟩ := addToLast_noind (fs := fs) hi p.1 p.2
        exact ⟨fs', h, by rw [addToLast_fields h]; exact hi⟩
    obtain ⟨fs', h1, h2⟩ := this
    refine ⟨fs', h2, ?_⟩
    have := Feeds.tick p.1 p.2 hF h1
    rw [hi] at this
    simpa using this

/-- C10's day split never happens for a frame set attached to an epic: `epic.last_tick` is replaced before
the frame sets are updated, so the dates compared are always equal (witness: two ticks on different days,
quantity 2). -/
theorem C10_day_split_false : ¬ Spec.DaySplit := by
  intro hD
  let t1 : Tick := ⟨⟨midnight 2020 1 1, midnight 2020 1 1, 0⟩, 1, 1⟩
  let t2 : Tick := ⟨⟨midnight 2020 1 2, midnight 2020 1 2, 0⟩, 1, 1⟩
  let c1 : Ctx := ⟨Zone.utc, some (false, ordOf (midnight 2020 1 1))⟩
  let c2 : Ctx := ⟨Zone.utc, some (false, ordOf (midnight 2020 1 2))⟩
  obtain ⟨fs, -, hF⟩ := feeds_tick_exists 2 10 (by norm_num) [(c1, t1), (c2, t2)]
  have hE : Spec.FromEpic ([(c1, t1), (c2, t2)].map (fun p => (⟨p.1, p.2, []⟩ : HEv))) := by
    intro e he
    simp only [List.map_cons, List.map_nil, List.mem_cons, List.not_mem_nil, or_false] at he
    rcases he with rfl | rfl <;> exact ⟨_, rfl⟩
  obtain ⟨f, h1, h2⟩ := hD 2 10 fs [] ⟨c1, t1, []⟩ ⟨c2, t2, []⟩ (by norm_num) (by norm_num) hF hE
    (by decide +kernel)
  obtain ⟨N, g1, g2, -, g4, g5⟩ := C10_tick_blocks_partial 2 10 (by norm_num) (by norm_num) fs _ hF hE
  simp only [List.map_cons, List.map_nil, List.length_cons, List.length_nil, ne_eq, reduceCtorEq,
    not_false_eq_true, forall_const] at g1 g2
  rw [show (2 : ℤ).toNat = 2 from rfl] at g1 g2
  rw [show (10 : ℤ).toNat = 10 from rfl] at g4
  have hN : N = 1 := by omega
  subst hN
  rw [List.getLast?_eq_getElem?, g4] at h1
  have := (g5 _ f h1).2.1
  rw [g4, h2] at this
  simp [Spec.tickBlock] at this

/-- A TICK frame set that is not attached to an epic opens a new frame for every tick, whatever its
quantity (`if not self.epic: return True`, frame_set.py:251-252). -/
theorem C10_detached_one_frame_per_tick (q m : ℤ) (hm : 1 ≤ m) (fs : FrameSet) (h : List HEv)
    (hF : Feeds .tick q m fs h) (hd : ∀ e ∈ h, e.ctx.epic = none) :
    fs.heap.length = h.length ∧ ∀ f ∈ fs.view, f.nbTicks = 1 := by
  suffices ∃ A, Built .tick q m fs A ∧ A.length = h.length ∧ ∀ a ∈ A, a.evs.length = 1 by
    obtain ⟨A, hB, h1, h2⟩ := this
    have hR := hB.rep hm
    refine ⟨by rw [hR.len, h1], ?_⟩
    intro f hf
    obtain ⟨j, hj⟩ := List.mem_iff_getElem?.mp hf
    obtain ⟨a, ha, hc⟩ := hR.view_core hj
    rw [hc.count]
    exact h2 a (List.mem_of_getElem? ha)
  induction hF with
  | new => exact ⟨[], Built.new, rfl, by simp⟩
  | ind i _ ih => obtain ⟨A, hB, h1⟩ := ih hd; exact ⟨A, Built.ind i hB, h1⟩
  | @tick fs fs' h c t hF hok ih =>
    obtain ⟨A, hB, h1, h2⟩ := ih (fun e he => hd e (by simp [he]))
    have hc : c.epic = none := hd ⟨c, t, fs.indicators⟩ (by simp)
    have hov : fs.overTick c t = true := by
      unfold FrameSet.overTick
      rw [hc]
      split <;> simp
    unfold FrameSet.onNewTick at hok
    rw [if_pos hB.fields.1, hov, if_pos rfl] at hok
    refine ⟨_, Built.create c t _ _ hB hok, by simp [h1], ?_⟩
    intro a ha
    rcases List.mem_append.mp ha with ha | ha
    · exact h2 a ha
    · rw [List.mem_singleton.mp ha]; rfl

/-! ## C11 -/

/-- C11: the frames in memory are the latest `min n m` of the `n` frames ever created, in creation order
(`heap` lists every frame ever created; see `C11_creations_append`). -/
theorem C11_memory_keeps_latest (u : Unit') (q m : ℤ) (hm : 1 ≤ m) (fs : FrameSet) (h : List HEv)
    (hF : Feeds u q m fs h) :
    fs.view.length = min fs.heap.length m.toNat ∧
    fs.view = fs.heap.drop (fs.heap.length - m.toNat) ∧
    fs.frames = (List.range fs.heap.length).drop (fs.heap.length - m.toNat) := by
  obtain ⟨A, hB, -⟩ := feeds_built hm hF
  have hR := hB.rep hm
  have hM : fs.maxFrames = m := hB.fields.2.2
  refine ⟨?_, ?_, ?_⟩
  · rw [hR.view_length, hM, hR.len]
  · rw [hR.view, hM, hR.len]
  · rw [hR.frames, hM, hR.len]
    apply List.ext_getElem?
    intro i
    rw [List.getElem?_drop]
    rcases lt_or_ge i (A.length - (A.length - m.toNat)) with hi | hi
    · rw [List.getElem?_range' hi, List.getElem?_range (by omega)]; simp
    · rw [List.getElem?_eq_none (by simpa using hi), List.getElem?_eq_none (by simp; omega)]

/-- Nothing but the last frame, and the links, is changed by creations and additions. -/
theorem built_step_bare {u : Unit'} {q m : ℤ} (hm : 1 ≤ m) {fs fs' : FrameSet} {A : List AF} {c : Ctx}
    {t : Tick} {ps : ℤ} {pe : Option ℤ} (hB : Built u q m fs A) (h : fs.createFrame c t ps pe = .ok fs')
    (i : ℕ) (hi : i < fs.heap.length) : (fs'.heap[i]?).map Frame.bare = (fs.heap[i]?).map Frame.bare := by
  obtain ⟨f, -, hb, -, -⟩ := createFrame_inv (hB.rep hm) (by rw [hB.fields.2.2]; exact hm) h
  rw [hb, List.getElem?_append_left hi]

theorem fillLoop_bare {u : Unit'} {q m : ℤ} (hm : 1 ≤ m) {c : Ctx} {ps : ℤ} (fuel : ℕ) :
    ∀ (fs fs' : FrameSet) (A : List AF), Built u q m fs A → fillLoop c ps fuel fs = .ok fs' →
    fs.heap.length ≤ fs'.heap.length ∧ ∀ i, i < fs.heap.length →
      (fs'.heap[i]?).map Frame.bare = (fs.heap[i]?).map Frame.bare := by
  induction fuel with
  | zero =>
    intro fs fs' A hB h
    rw [fillLoop] at h
    split at h
    · cases h; exact ⟨le_rfl, fun _ _ => rfl⟩
    · split at h
      · cases h
      · split_ifs at h
        cases h; exact ⟨le_rfl, fun _ _ => rfl⟩
  | succ fuel ih =>
    intro fs fs' A hB h
    rw [fillLoop] at h
    split at h
    · cases h; exact ⟨le_rfl, fun _ _ => rfl⟩
    · split at h
      · cases h
      · split_ifs at h
        · simp only [bind, Except.bind] at h
          split at h
          · cases h
          · rename_i fs1 hcr
            have hB1 := Built.create _ _ _ _ hB hcr
            have hl : fs1.heap.length = fs.heap.length + 1 := by
              rw [(hB1.rep hm).len, (hB.rep hm).len]; simp
            obtain ⟨h1, h2⟩ := ih fs1 fs' _ hB1 h
            refine ⟨by omega, fun i hi => ?_⟩
            rw [h2 i (by omega), built_step_bare hm hB hcr i hi]
        · cases h; exact ⟨le_rfl, fun _ _ => rfl⟩

/-- C11: a tick adds frames at the end and changes no earlier frame but the current one, links apart. -/
theorem C11_creations_append (u : Unit') (q m : ℤ) (hm : 1 ≤ m) (fs fs' : FrameSet) (h : List HEv)
    (hF : Feeds u q m fs h) (c : Ctx) (t : Tick) (hok : fs.onNewTick c t = .ok fs') :
    fs.heap.length ≤ fs'.heap.length ∧
    ∀ i, i + 1 < fs.heap.length → (fs'.heap[i]?).map Frame.bare = (fs.heap[i]?).map Frame.bare := by
  obtain ⟨A, hB, -⟩ := feeds_built hm hF
  have hadd : fs.addToLast c t = .ok fs' → fs.heap.length ≤ fs'.heap.length ∧
      ∀ i, i + 1 < fs.heap.length → (fs'.heap[i]?).map Frame.bare = (fs.heap[i]?).map Frame.bare := by
    intro hadd
    rcases List.eq_nil_or_concat A with rfl | ⟨B, a, rfl⟩
    · unfold FrameSet.addToLast at hadd
      rw [(hB.rep hm).current_none] at hadd
      cases hadd
      exact ⟨le_rfl, fun _ _ => rfl⟩
    · rw [List.concat_eq_append] at hB
      obtain ⟨f, f', -, -, -, rfl, -⟩ := addToLast_inv (hB.rep hm) (by rw [hB.fields.2.2]; exact hm) hadd
      refine ⟨by simp, fun i hi => ?_⟩
      have hl := (hB.rep hm).len
      simp only [List.length_append, List.length_cons, List.length_nil, zero_add] at hl
      simp only
      rw [List.getElem?_set_ne (by omega)]
  have hcreate : ∀ (fs1 : FrameSet) (A1 : List AF) ps pe, Built u q m fs1 A1 →
      fs1.createFrame c t ps pe = .ok fs' → fs1.heap.length ≤ fs'.heap.length ∧
      ∀ i, i < fs1.heap.length → (fs'.heap[i]?).map Frame.bare = (fs1.heap[i]?).map Frame.bare := by
    intro fs1 A1 ps pe hB1 hcr
    have hB2 := Built.create _ _ _ _ hB1 hcr
    refine ⟨?_, fun i hi => built_step_bare hm hB1 hcr i hi⟩
    rw [(hB2.rep hm).len, (hB1.rep hm).len]; simp
  unfold FrameSet.onNewTick at hok
  split_ifs at hok
  · obtain ⟨h1, h2⟩ := hcreate fs A _ _ hB hok
    exact ⟨h1, fun i hi => h2 i (by omega)⟩
  · exact hadd hok
  · simp only [bind, Except.bind] at hok
    split at hok
    · cases hok
    · split_ifs at hok
      · unfold FrameSet.createTimed at hok
        simp only [bind, Except.bind] at hok
        split at hok
        · cases hok
        · split at hok
          · cases hok
          · rename_i fs1 hfl
            obtain ⟨-, F, hB1⟩ := fillLoop_built _ _ _ _ hB hfl
            obtain ⟨h1, h2⟩ := fillLoop_bare hm _ _ _ _ hB hfl
            obtain ⟨h3, h4⟩ := hcreate fs1 _ _ _ hB1 hok
            exact ⟨h1.trans h3, fun i hi => by rw [h4 i (by omega), h2 i (by omega)]⟩
      · exact hadd hok

/-! ## C12 -/

/-- C12: links and `closed` of the frames in memory. -/
theorem C12_links_mirror_list (u : Unit') (q m : ℤ) (hm : 1 ≤ m) (fs : FrameSet) (h : List HEv)
    (hF : Feeds u q m fs h) (i : ℕ) (f : Frame) (hf : fs.view[i]? = some f) :
    f.prev = (if i = 0 then none else fs.frames[i - 1]?) ∧ f.next = fs.frames[i + 1]? ∧
    (f.closed = true ↔ i + 1 < fs.view.length) := by
  obtain ⟨A, hB, -⟩ := feeds_built hm hF
  have hR := hB.rep hm
  have hlt := (List.getElem?_eq_some_iff.mp hf).1
  rw [hR.view_length] at hlt
  rw [hR.view_get] at hf
  have hp := hR.prev _ f hf
  have hn := hR.next _ f hf
  have hfr := hR.frames
  have hM : 1 ≤ fs.maxFrames.toNat := by rw [hB.fields.2.2]; omega
  rw [hR.view_length]
  refine ⟨?_, ?_, ?_⟩
  · rw [hp, hfr]
    split_ifs with h1 h2 h2
    · omega
    · rw [List.getElem?_range' (by omega)]; congr 1; omega
    · rfl
    · omega
  · rw [hn, hfr]
    split_ifs with h1
    · rw [List.getElem?_range' (by omega)]; congr 1; omega
    · rw [List.getElem?_eq_none (by simp; omega)]
  · unfold Frame.closed
    rw [hn]
    split_ifs with h1
    · simp; omega
    · simp; omega

/-- C12: a frame dropped from memory has no links left. -/
theorem C12_evicted_unlinked (u : Unit') (q m : ℤ) (hm : 1 ≤ m) (fs : FrameSet) (h : List HEv)
    (hF : Feeds u q m fs h) (i : ℕ) (f : Frame) (hf : fs.heap[i]? = some f) (hi : i ∉ fs.frames) :
    f.prev = none ∧ f.next = none := by
  obtain ⟨A, hB, -⟩ := feeds_built hm hF
  have hR := hB.rep hm
  have hlt := (List.getElem?_eq_some_iff.mp hf).1
  rw [hR.len] at hlt
  rw [hR.frames, List.mem_range'_1] at hi
  have hlo : i < A.length - fs.maxFrames.toNat := by omega
  rw [hR.prev i f hf, hR.next i f hf, if_neg (by omega), if_neg (by omega)]
  exact ⟨rfl, rfl⟩

/-- C12, the clause that fails: a frame once closed stays closed. -/
def Spec.StaysClosed (inMemory : Bool) : Prop := ∀ (u : Unit') (q m : ℤ) (fs fs' : FrameSet) (h : List HEv)
  (c : Ctx) (t : Tick) (i : ℕ) (f f' : Frame), 1 ≤ m → Feeds u q m fs h → fs.onNewTick c t = .ok fs' →
  fs.heap[i]? = some f → f.closed = true → fs'.heap[i]? = some f' → (inMemory = true → i ∈ fs'.frames) →
  f'.closed = true

/-- Closed frames lose their `closed` status when they are dropped from memory: `clean_old_frames` sets
`next_frame = None` (frame_set.py:198), on which `closed` is defined. -/
theorem C12_stays_closed_false : ¬ Spec.StaysClosed false := by
  intro hS
  let t : Tick := ⟨⟨midnight 2020 1 1, midnight 2020 1 1, 0⟩, 1, 1⟩
  let c : Ctx := ⟨Zone.utc, none⟩
  obtain ⟨fs, hi, hF⟩ := feeds_tick_exists 1 2 (by norm_num) [(c, t), (c, t)]
  obtain ⟨A, hB, -⟩ := feeds_built (by norm_num) hF
  have hl := (C10_detached_one_frame_per_tick 1 2 (by norm_num) fs _ hF (by simp [c])).1
  have hov : fs.overTick c t = true := by
    unfold FrameSet.overTick
    split <;> simp [c]
  have hm : 1 ≤ fs.maxFrames := by rw [hB.fields.2.2]; norm_num
  obtain ⟨fs', hok⟩ := createFrame_noind hm hi c t t.dt.wall none
  have hok' : fs.onNewTick c t = .ok fs' := by
    unfold FrameSet.onNewTick
    rw [if_pos hB.fields.1, hov, if_pos rfl, hok]
  have hR := hB.rep (by norm_num)
  have hB' := Built.create _ _ _ _ hB hok
  have hR' := hB'.rep (by norm_num)
  have hA : A.length = 2 := by rw [← hR.len, hl]; rfl
  have hg : fs.heap[0]? = some (fs.heap[0]'(by rw [hl]; simp)) := List.getElem?_eq_getElem _
  have hl' : fs'.heap.length = 3 := by rw [hR'.len]; simp [hA]
  have hg' : fs'.heap[0]? = some (fs'.heap[0]'(by omega)) := List.getElem?_eq_getElem _
  have h1 := hR.next 0 _ hg
  have h2 := hR'.next 0 _ hg'
  rw [hB.fields.2.2, hA, if_pos (by decide)] at h1
  rw [hB'.fields.2.2, List.length_append, hA, List.length_singleton, if_neg (by decide)] at h2
  have := hS .tick 1 2 fs fs' _ c t 0 _ _ (by norm_num) hF hok' hg (by unfold Frame.closed; rw [h1]; rfl)
    hg' (by simp)
  unfold Frame.closed at this
  rw [h2] at this
  simp at this

/-- C12: as long as it is in memory, a closed frame stays closed. -/
theorem C12_stays_closed_partial : Spec.StaysClosed true := by
  intro u q m fs fs' h c t i f f' hm hF hok hf hcl hf' hin
  obtain ⟨A, hB, -⟩ := feeds_built hm hF
  have hF' := Feeds.tick c t hF hok
  obtain ⟨A', hB', -⟩ := feeds_built hm hF'
  have hR := hB.rep hm
  have hR' := hB'.rep hm
  have hlen := (C11_creations_append u q m hm fs fs' h hF c t hok).1
  rw [hR.len, hR'.len] at hlen
  have hin := hin rfl
  rw [hR'.frames, List.mem_range'_1] at hin
  unfold Frame.closed at hcl ⊢
  rw [hR.next i f hf] at hcl
  rw [hR'.next i f' hf']
  split_ifs at hcl with h1
  · rw [if_pos (by omega)]; rfl
  · simp at hcl

/-! ## C13 -/

/-- C13, full statement: the loop of `_create_new_frame_timed` ends for every accepted timeframe. -/
def Spec.C13 : Prop := ∀ (u : Unit') (q m : ℤ) (fs : FrameSet) (h : List HEv) (c : Ctx) (t : Tick),
  checkTimeframe u q = .ok ⟨⟩ → u ≠ .tick → 1 ≤ m → Feeds u q m fs h → (∀ x, x ≤ c.zone.resolve x) →
  fs.onNewTick c t ≠ .error .diverge

/-- C13 for positive quantities (every zone, ordered ticks or not).  The number of frames created is given
by `C09_frames_are_periods_partial`; that the bound on the iterations used by the model does not matter is
`C13_fuel_irrelevant`.  Missing: negative quantities, for which the loop does
not end in a calendar without end (`C104_negative` and `C104_false` for that of Python). -/
theorem C13_gap_filling_terminates_partial (u : Unit') (q m : ℤ) (hu : u ≠ .tick) (hq : 0 < q) (hm : 1 ≤ m)
    (fs : FrameSet) (h : List HEv) (hF : Feeds u q m fs h) (c : Ctx) (t : Tick)
    (hz : ∀ x, x ≤ c.zone.resolve x) : fs.onNewTick c t ≠ .error .diverge := by
  obtain ⟨A, hB, -⟩ := feeds_built hm hF
  exact onNewTick_terminates hm hu hq hz hB

/-- The outcome of the loop does not depend on the number of iterations the model allows. -/
theorem C13_fuel_irrelevant (c : Ctx) (ps : ℤ) (n k : ℕ) (fs : FrameSet)
    (h : fillLoop c ps n fs ≠ .error .diverge) : fillLoop c ps (n + k) fs = fillLoop c ps n fs :=
  fillLoop_mono n k fs h

/-- Negative quantities: the second tick never returns, in a calendar without end (see `C104_negative`, `C104_false`).  `hov` (the first frame is over at once) holds
because a "frame" of negative length ends before it starts. -/
theorem C13_negative_quantity_diverges (u : Unit') (q m : ℤ) (hu : u ≠ .tick) (hq : q < 0) (hm : 1 ≤ m)
    (c : Ctx) (hz : ∀ x, c.zone.resolve x = x) (t : Tick) (ps : ℤ)
    (hps : frameStart u q t.dt.wall = .ok ps) (hov : frameEnd c.zone u q ps ≤ t.dt.wall) :
    ∃ fs, Feeds u q m fs [⟨c, t, []⟩] ∧ fs.onNewTick c t = .error .diverge ∧
      ∀ fuel, fillLoop c ps fuel fs = .error .diverge := by
  have hend := frameEnd_lt hz hu hq
  have hB0 : Built u q m ⟨u, q, m, [], [], []⟩ [] := Built.new
  obtain ⟨fs, hcr⟩ := createFrame_noind (fs := ⟨u, q, m, [], [], []⟩) hm rfl c t ps
    (some (frameEnd c.zone u q ps))
  have hok : (⟨u, q, m, [], [], []⟩ : FrameSet).onNewTick c t = .ok fs := by
    unfold FrameSet.onNewTick FrameSet.overTimed FrameSet.createTimed
    simp only [if_neg hu, bind, Except.bind, FrameSet.current, List.getLast?_nil, if_true, hps]
    rw [fillLoop]
    exact hcr
  have hB := Built.create c t _ _ hB0 hcr
  have hi : fs.indicators = [] := by rw [createFrame_fields hcr]
  have hdiv : ∀ fuel, fillLoop c ps fuel fs = .error .diverge := fun fuel =>
    fillLoop_diverges hm hend fuel fs _ _ _ hB hi rfl (hend ps)
  refine ⟨fs, Feeds.tick c t Feeds.new hok, ?_, hdiv⟩
  obtain ⟨f, hc, -, hco⟩ := (hB.rep hm).current (by rw [hB.fields.2.2]; exact hm)
  have hst := hco.stop
  simp only at hst
  unfold FrameSet.onNewTick FrameSet.overTimed FrameSet.createTimed
  rw [hB.fields.1, hB.fields.2.1]
  simp only [if_neg hu, bind, Except.bind, hc, hst, decide_eq_true hov, if_true, hps]
  rw [hdiv]

/-- C13 is false: a frame set of -5 minutes is accepted and its second tick goes back in time without end; that of the calendar is in
`C104_negative`, and a case where the code hangs in `C104_false`. -/
theorem C13_false : ¬ Spec.C13 := by
  intro h
  let t : Tick := ⟨⟨midnight 2020 1 1, midnight 2020 1 1, 0⟩, 1, 1⟩
  let c : Ctx := ⟨Zone.utc, none⟩
  obtain ⟨fs, h1, h2, -⟩ := C13_negative_quantity_diverges .minute (-5) 10 (by decide) (by decide)
    (by decide) c (fun _ => rfl) t (midnight 2020 1 1) (by decide +kernel) (by decide +kernel)
  exact h .minute (-5) 10 fs _ c t (by decide +kernel) (by decide) (by decide) h1 (fun _ => le_rfl) h2

end

/-! ## Concrete cases for the hypotheses -/

section examples

private def tickAt (w : ℤ) (b a : ℚ) : Ctx × Tick :=
  (⟨Zone.utc, some (true, ordOf w)⟩, ⟨⟨w, w, 0⟩, b, a⟩)

private def day0 : ℤ := midnight 2021 3 1

/-- Four ticks, with one empty minute: 4 frames, 3 of them kept. -/
private def sample : List (Ctx × Tick) :=
  [tickAt day0 10 11, tickAt (day0 + 30 * secUs) 12 13, tickAt (day0 + 65 * secUs) 9 10,
   tickAt (day0 + 200 * secUs) 9 10]

private theorem sample_ok {u : Unit'} {q m : ℤ} {l : List (Ctx × Tick)} [Arith]
    (h : (feedAll ⟨u, q, m, [], [], []⟩ l).isOk = true) :
    ∃ fs hs, Feeds u q m fs hs ∧ hs.map (fun e => (e.ctx, e.tick)) = l ∧
      feedAll ⟨u, q, m, [], [], []⟩ l = .ok fs := by
  rcases hf : feedAll ⟨u, q, m, [], [], []⟩ l with e | fs
  · rw [hf] at h; cases h
  · obtain ⟨h', h1, h2⟩ := feeds_of_feedAll Feeds.new hf
    exact ⟨fs, h', by simpa using h1, h2, rfl⟩

private theorem inOrder_of_map {h : List HEv} {l : List (Ctx × Tick)}
    (he : h.map (fun e => (e.ctx, e.tick)) = l) (hl : l.Pairwise (fun a b => a.2.dt.wall ≤ b.2.dt.wall)) :
    Spec.InOrder h := by
  subst he
  rw [List.pairwise_map] at hl
  exact hl

private theorem const_of_map {u : Unit'} {q : ℤ} {h : List HEv} {l : List (Ctx × Tick)}
    (he : h.map (fun e => (e.ctx, e.tick)) = l) (hl : ∀ p ∈ l, p.1.zone = Zone.utc) :
    Spec.NoneSkipped u q h := by
  subst he
  intro e hm _ _ n _ _ _
  have := hl (e.ctx, e.tick) (List.mem_map_of_mem hm)
  simp only at this
  rw [this]; rfl

/-- C07, C08, C09, C11, C12, C13: a minute frame set with memory 3 fed with `sample`. -/
example : letI := Arith.exact
    ∃ fs h, Feeds .minute 1 3 fs h ∧ Spec.InOrder h ∧ Spec.NoneSkipped .minute 1 h ∧ h.length = 4 ∧
      Spec.Accepted .minute 1 ∧ fs.view.map Frame.nbTicks = [1, 1, 1] ∧ fs.heap.length = 4 := by
  letI := Arith.exact
  obtain ⟨fs, h, h1, h2, h3⟩ := sample_ok (u := .minute) (q := 1) (m := 3) (l := sample) (by decide +kernel)
  refine ⟨fs, h, h1, inOrder_of_map h2 (by decide +kernel), const_of_map h2 (by simp [sample, tickAt]),
    by have := congrArg List.length h2; simpa [sample] using this,
    ⟨rfl, by decide, by decide⟩, ?_, ?_⟩
  · have : (feedAll ⟨.minute, 1, 3, [], [], []⟩ sample).map (fun fs => fs.view.map Frame.nbTicks) =
        .ok [1, 1, 1] := by decide +kernel
    rw [h3] at this
    exact Except.ok.inj this
  · have : (feedAll ⟨.minute, 1, 3, [], [], []⟩ sample).map (fun fs => fs.heap.length) =
        .ok 4 := by decide +kernel
    rw [h3] at this
    exact Except.ok.inj this

/-- Ticks at noon UTC of 30 and 31 March and 1 April 2019 in Paris, clocks changing in the night between the first two. -/
private def parisTicks : List (Ctx × Tick) :=
  [midnight 2019 3 30 + 12 * hourUs, midnight 2019 3 31 + 12 * hourUs, midnight 2019 4 1 + 12 * hourUs].map fun u =>
    (⟨Zone.paris2019, some (true, ordOf u)⟩, ⟨(⟨u, u, 0⟩ : DT).to Zone.paris2019, 10, 11⟩)

/-- C08, C09: day frames in Paris across the clock change. -/
example : letI := Arith.exact
    ∃ fs h, Feeds .day 1 5 fs h ∧ Spec.InOrder h ∧ Spec.NoneSkipped .day 1 h ∧
      h.map (fun e => e.tick.dt.wall) =
        [midnight 2019 3 30 + 13 * hourUs, midnight 2019 3 31 + 14 * hourUs, midnight 2019 4 1 + 14 * hourUs] ∧
      fs.view.map Frame.periodStart = [midnight 2019 3 30, midnight 2019 3 31, midnight 2019 4 1] := by
  letI := Arith.exact
  obtain ⟨fs, h, h1, h2, h3⟩ := sample_ok (u := .day) (q := 1) (m := 5) (l := parisTicks) (by decide +kernel)
  refine ⟨fs, h, h1, inOrder_of_map h2 (by decide +kernel), ?_, ?_, ?_⟩
  · apply noneSkipped_of_keepsGrid
    intro e he
    have : (e.ctx, e.tick) ∈ parisTicks := h2 ▸ List.mem_map_of_mem he
    simp only [parisTicks, List.map_cons, List.map_nil, List.mem_cons, Prod.mk.injEq, List.not_mem_nil,
      or_false] at this
    rcases this with ⟨a, -⟩ | ⟨a, -⟩ | ⟨a, -⟩ <;> · rw [a]; exact paris2019_keeps_days.1
  · have : h.map (fun e => e.tick.dt.wall) = (h.map (fun e => (e.ctx, e.tick))).map (fun p => p.2.dt.wall) := by
      rw [List.map_map]; rfl
    rw [this, h2]
    decide +kernel
  · have : (feedAll ⟨.day, 1, 5, [], [], []⟩ parisTicks).map (fun fs => fs.view.map Frame.periodStart) =
        .ok [midnight 2019 3 30, midnight 2019 3 31, midnight 2019 4 1] := by decide +kernel
    rw [h3] at this
    exact Except.ok.inj this

/-- Ticks at noon of 3 and 4 November 2018 in Sao Paulo, clocks skipping the midnight between them. -/
private def gapTicks : List (Ctx × Tick) :=
  [midnight 2018 11 3 + 15 * hourUs, midnight 2018 11 4 + 14 * hourUs].map fun u =>
    (⟨Zone.saoPaulo2018, some (true, ordOf u)⟩, ⟨(⟨u, u, 0⟩ : DT).to Zone.saoPaulo2018, 10, 11⟩)

private theorem gap_frames : letI := Arith.binary64
    ∃ fs h, Feeds .day 1 5 fs h ∧ Spec.InOrder h ∧ Spec.ForwardZones h ∧
    fs.view.map (fun f => (f.periodStart, f.periodEnd)) =
      [(midnight 2018 11 3, some (midnight 2018 11 4 + hourUs)),
       (midnight 2018 11 4, some (midnight 2018 11 5))] := by
  letI := Arith.binary64
  have key : (feedAll ⟨.day, 1, 5, [], [], []⟩ gapTicks).map (fun fs => fs.view.map
      (fun f => (f.periodStart, f.periodEnd))) = .ok [(midnight 2018 11 3, some (midnight 2018 11 4 + hourUs)),
       (midnight 2018 11 4, some (midnight 2018 11 5))] := by
    decide +kernel
  obtain ⟨fs, h, h1, h2, h3⟩ := sample_ok (u := .day) (q := 1) (m := 5) (l := gapTicks) (by
    have := key
    revert this
    rcases feedAll ⟨.day, 1, 5, [], [], []⟩ gapTicks with e | fs
    · intro h; cases h
    · intro; rfl)
  refine ⟨fs, h, h1, inOrder_of_map h2 (by decide +kernel), ?_, ?_⟩
  · intro e he
    have : (e.ctx, e.tick) ∈ gapTicks := h2 ▸ List.mem_map_of_mem he
    simp only [gapTicks, List.map_cons, List.map_nil, List.mem_cons, Prod.mk.injEq, List.not_mem_nil,
      or_false] at this
    rcases this with ⟨a, -⟩ | ⟨a, -⟩ <;> · rw [a]; exact saoPaulo2018_forward
  · have := key
    rw [h3] at this
    exact Except.ok.inj this

/-- C08 needs its restriction: across a clock change that skips a frame boundary,
consecutive frames overlap. -/
theorem C08_overlap_at_clock_change : letI := Arith.binary64
    ∃ (fs : FrameSet) (h : List HEv) (f g : Frame) (e : ℤ),
    Feeds .day 1 5 fs h ∧ Spec.InOrder h ∧ Spec.ForwardZones h ∧ fs.view[0]? = some f ∧
    fs.view[1]? = some g ∧ f.periodEnd = some e ∧ g.periodStart < e := by
  letI := Arith.binary64
  obtain ⟨fs, h, h1, h2, h3, h4⟩ := gap_frames
  rcases hv : fs.view with _ | ⟨f, _ | ⟨g, l⟩⟩ <;> rw [hv] at h4
  · cases h4
  · simp at h4
  · simp only [List.map_cons, List.cons.injEq, Prod.mk.injEq] at h4
    refine ⟨fs, h, f, g, _, h1, h2, h3, by rw [hv]; rfl, by rw [hv]; rfl, h4.1.2, ?_⟩
    rw [h4.2.1.1]
    decide +kernel

/-- C08, C09: the restriction is needed at every skipped instant.  If the zone skips the first aligned instant after the
tick, the frame the tick starts does not end there. -/
theorem C09_skipped_instant [Arith] (u : Unit') (q m : ℤ) (ha : Spec.Accepted u q) (hm : 1 ≤ m) (c : Ctx) (t : Tick)
    (hr : Spec.InRange u q t.dt.wall) (n : ℤ) (hn : Spec.Aligned u q n) (hlt : t.dt.wall < n)
    (hleast : ∀ a, Spec.Aligned u q a → t.dt.wall < a → n ≤ a) :
    ∃ fs f, Feeds u q m fs [⟨c, t, []⟩] ∧ fs.view = [f] ∧ f.periodEnd = some (c.zone.resolve n) ∧
      (Spec.NoneSkipped u q [⟨c, t, []⟩] ↔ f.periodEnd = some n) := by
  have hT := accepted_tiles ha
  have hstart := frameStart_grid hT (inRange_startOk ha.2.1 hr)
  have hgn : n = grid u q (gidx u q t.dt.wall + 1) := by
    obtain ⟨g1, g2⟩ := gidx_spec hT t.dt.wall
    apply le_antisymm (hleast _ ((aligned_iff_grid hT _).mpr ⟨_, rfl⟩) g2)
    obtain ⟨j, rfl⟩ := (aligned_iff_grid hT _).mp hn
    have := (grid_strictMono hT).lt_iff_lt.mp (g1.trans_lt hlt)
    exact (grid_strictMono hT).monotone (by omega)
  obtain ⟨fs, hfs⟩ := createFrame_ok (fs := ⟨u, q, m, [], [], []⟩) (c := c) (t := t)
    (ps := grid u q (gidx u q t.dt.wall)) (pe := some (frameEnd c.zone u q (grid u q (gidx u q t.dt.wall)))) hm rfl
  have hok : FrameSet.onNewTick ⟨u, q, m, [], [], []⟩ c t = .ok fs := by
    unfold FrameSet.onNewTick
    simp only [if_neg hT.ne_tick, FrameSet.overTimed, FrameSet.current, List.getLast?_nil, bind, Except.bind, if_true,
      FrameSet.createTimed, hstart, fillLoop]
    exact hfs
  have hB := Built.create c t _ _ (Built.new (u := u) (q := q) (m := m)) hfs
  have hR := hB.rep hm
  have hlen := hR.view_length
  rw [hB.fields.2.2] at hlen
  have h1 : fs.view.length = 1 := by
    rw [hlen]; simp; omega
  obtain ⟨f, hf⟩ := List.length_eq_one_iff.mp h1
  obtain ⟨x, hx, hc⟩ := hR.view_core (j := 0) (f := f) (by rw [hf]; rfl)
  have hx' := List.mem_of_getElem? hx
  simp only [List.nil_append, List.mem_singleton] at hx'
  have hstop := hc.stop
  rw [hx'] at hstop
  simp only [frameEnd_grid hT, ← hgn] at hstop
  refine ⟨fs, f, Feeds.tick c t .new hok, hf, hstop, ?_⟩
  rw [hstop, Option.some.injEq]
  constructor
  · intro h
    exact h _ (List.mem_singleton.mpr rfl) _ (List.mem_singleton.mpr rfl) n hn hlt hleast
  · intro h e he y hy a hal h2 h3
    rw [List.mem_singleton.mp he] at h3 ⊢
    rw [List.mem_singleton.mp hy] at h2
    rw [show a = n from le_antisymm (h3 n hn hlt) (hleast a hal h2)]
    exact h

/-- The hypotheses of `C09_skipped_instant` with an instant that is skipped: 02:00 of 31 March 2019 in Paris, hour frames,
a tick at 01:30. -/
example : Spec.Accepted .hour 1 ∧ Spec.InRange .hour 1 (midnight 2019 3 31 + 90 * minUs) ∧
    Spec.Aligned .hour 1 (midnight 2019 3 31 + 2 * hourUs) ∧
    Zone.paris2019.resolve (midnight 2019 3 31 + 2 * hourUs) = midnight 2019 3 31 + 3 * hourUs := by
  refine ⟨⟨rfl, by decide, by decide⟩, ⟨by decide +kernel, by decide⟩, ?_, by decide +kernel⟩
  unfold Spec.Aligned
  decide +kernel

/-- C09 is false of the code in zones whose clocks skip a frame boundary. -/
theorem C09_false : letI := Arith.binary64
    ¬ Spec.C09 := by
  letI := Arith.binary64
  intro h
  obtain ⟨fs, hs, h1, h2, h3, h4⟩ := gap_frames
  rcases hv : fs.view with _ | ⟨f, l⟩ <;> rw [hv] at h4
  · cases h4
  · simp only [List.map_cons, List.cons.injEq, Prod.mk.injEq] at h4
    obtain ⟨s, e, -, ha, -, -, hp⟩ := h .day 1 5 fs hs ⟨rfl, by decide, by decide⟩ (by decide) h1 h2 h3 f
      (by rw [hv]; simp)
    have he : f.periodEnd = some e := hp.stop
    rw [h4.1.2] at he
    cases he
    revert ha
    unfold Spec.Aligned
    decide +kernel

/-- C10: a TICK frame set of 3 fed with `sample` by an epic. -/
example : letI := Arith.exact
    ∃ fs h, Feeds .tick 3 5 fs h ∧ Spec.FromEpic h ∧ fs.view.map Frame.nbTicks = [3, 1] := by
  letI := Arith.exact
  obtain ⟨fs, h, h1, h2, h3⟩ := sample_ok (u := .tick) (q := 3) (m := 5) (l := sample) (by decide +kernel)
  refine ⟨fs, h, h1, ?_, ?_⟩
  · intro e he
    have : (e.ctx, e.tick) ∈ sample := h2 ▸ List.mem_map_of_mem he
    simp only [sample, tickAt, List.mem_cons, Prod.mk.injEq, List.not_mem_nil, or_false] at this
    rcases this with ⟨a, b⟩ | ⟨a, b⟩ | ⟨a, b⟩ | ⟨a, b⟩ <;> exact ⟨true, by rw [a, b]⟩
  · have : (feedAll ⟨.tick, 3, 5, [], [], []⟩ sample).map (fun fs => fs.view.map Frame.nbTicks) =
        .ok [3, 1] := by decide +kernel
    rw [h3] at this
    exact Except.ok.inj this

end examples

end Estrade
