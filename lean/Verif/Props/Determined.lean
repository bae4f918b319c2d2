import Verif.Props.Aggregate

/-!
# C66: what a frame shows is determined by the ticks of its period

Neither the memory limit, nor the indicators, nor the other ticks, nor the unit in which the period is written matter.
-/

set_option linter.style.haveILetI false
set_option linter.unusedSectionVars false
set_option autoImplicit false

namespace Estrade

/-- Spec: what a frame shows of the market: period, ticks, number of ticks. -/
def Spec.face (f : Frame) : ℤ × Option ℤ × ℤ × Tick × Tick × Tick × Tick :=
  (f.periodStart, f.periodEnd, f.nbTicks, f.first, f.high, f.low, f.last)

section
variable [Arith]

theorem extreme_unique {P : Tick → Tick → Prop} {ts : List Tick} {x y : Tick}
    (hx : ∃ pre post, ts = pre ++ x :: post ∧ (∀ t ∈ pre, P t x) ∧ ∀ t ∈ post, ¬ P x t)
    (hy : ∃ pre post, ts = pre ++ y :: post ∧ (∀ t ∈ pre, P t y) ∧ ∀ t ∈ post, ¬ P y t) : x = y := by
  obtain ⟨p1, s1, e1, a1, b1⟩ := hx
  obtain ⟨p2, s2, e2, a2, b2⟩ := hy
  rw [e1] at e2
  rcases List.append_eq_append_iff.mp e2 with ⟨l, h1, h2⟩ | ⟨l, h1, h2⟩
  · rcases l with _ | ⟨z, l⟩
    · simp only [List.nil_append, List.cons.injEq] at h2; exact h2.1
    · simp only [List.cons_append, List.cons.injEq] at h2
      obtain ⟨rfl, h2⟩ := h2
      have q1 := a2 x (by rw [h1]; simp)
      exact absurd q1 (b1 y (by rw [h2]; simp))
  · rcases l with _ | ⟨z, l⟩
    · simp only [List.nil_append, List.cons.injEq] at h2; exact h2.1.symm
    · simp only [List.cons_append, List.cons.injEq] at h2
      obtain ⟨rfl, h2⟩ := h2
      have q1 := a1 y (by rw [h1]; simp)
      exact absurd q1 (b2 x (by rw [h2]; simp))

theorem Spec.Summary.unique {ts : List Tick} {f h l la f' h' l' la' : Tick} (s : Spec.Summary ts f h l la)
    (s' : Spec.Summary ts f' h' l' la') : f = f' ∧ h = h' ∧ l = l' ∧ la = la' := by
  refine ⟨Option.some.inj (s.first.symm.trans s'.first), ?_, ?_, Option.some.inj (s.last.symm.trans s'.last)⟩
  · refine extreme_unique (P := fun a b => a.value < b.value) (ts := ts) ?_ ?_
    · obtain ⟨p, q, e, a, b⟩ := s.high; exact ⟨p, q, e, a, fun t ht => not_lt.mpr (b t ht)⟩
    · obtain ⟨p, q, e, a, b⟩ := s'.high; exact ⟨p, q, e, a, fun t ht => not_lt.mpr (b t ht)⟩
  · refine extreme_unique (P := fun a b => b.value < a.value) (ts := ts) ?_ ?_
    · obtain ⟨p, q, e, a, b⟩ := s.low; exact ⟨p, q, e, a, fun t ht => not_lt.mpr (b t ht)⟩
    · obtain ⟨p, q, e, a, b⟩ := s'.low; exact ⟨p, q, e, a, fun t ht => not_lt.mpr (b t ht)⟩

theorem Spec.PeriodFrame.unique {h h' : List HEv} {s e : ℤ} {f f' : Frame} (H : Spec.PeriodFrame h s e f)
    (H' : Spec.PeriodFrame h' s e f') (h1 : Spec.ticksIn h s e = Spec.ticksIn h' s e)
    (h2 : Spec.ticksIn h s e = [] → ((h.map HEv.tick).filter (fun t => decide (t.dt.wall < s))).getLast? =
      ((h'.map HEv.tick).filter (fun t => decide (t.dt.wall < s))).getLast?) : Spec.face f = Spec.face f' := by
  have h3 : f.nbTicks = f'.nbTicks ∧ f.first = f'.first ∧ f.high = f'.high ∧ f.low = f'.low ∧ f.last = f'.last := by
    by_cases hne : Spec.ticksIn h s e = []
    · obtain ⟨a1, a2, a3, a4, a5⟩ := H.idle hne
      obtain ⟨b1, b2, b3, b4, b5⟩ := H'.idle (h1 ▸ hne)
      have : f.last = f'.last := Option.some.inj (by rw [← a5, ← b5]; exact h2 hne)
      exact ⟨by rw [a1, b1], by rw [a2, b2, this], by rw [a3, b3, this], by rw [a4, b4, this], this⟩
    · obtain ⟨a1, a2⟩ := H.busy hne
      obtain ⟨b1, b2⟩ := H'.busy (h1 ▸ hne)
      rw [← h1] at b1 b2
      exact ⟨by rw [a1, b1], a2.unique b2⟩
  unfold Spec.face
  rw [H.start, H'.start, H.stop, H'.stop, h3.1, h3.2.1, h3.2.2.1, h3.2.2.2.1, h3.2.2.2.2]

/-- C66: two frames with the same period, in any two frame sets of any units, memory limits, indicators and histories, show the
same if the two histories have the same ticks in the period (and, for a period without ticks, the same latest tick before it). -/
theorem C66_local (u u' : Unit') (q q' m m' : ℤ) (ha : Spec.Accepted u q) (ha' : Spec.Accepted u' q') (hm : 1 ≤ m) (hm' : 1 ≤ m')
    (fs fs' : FrameSet) (h h' : List HEv) (hF : Feeds u q m fs h) (hF' : Feeds u' q' m' fs' h') (ho : Spec.InOrder h)
    (ho' : Spec.InOrder h') (hz : Spec.NoneSkipped u q h) (hz' : Spec.NoneSkipped u' q' h') (f f' : Frame) (hf : f ∈ fs.view)
    (hf' : f' ∈ fs'.view) (s e : ℤ) (h1 : f.periodStart = s) (h2 : f'.periodStart = s) (h3 : f.periodEnd = some e)
    (h4 : f'.periodEnd = some e) (hs : Spec.ticksIn h s e = Spec.ticksIn h' s e)
    (hb : Spec.ticksIn h s e = [] → ((h.map HEv.tick).filter (fun t => decide (t.dt.wall < s))).getLast? =
      ((h'.map HEv.tick).filter (fun t => decide (t.dt.wall < s))).getLast?) :
    Spec.face f = Spec.face f' := by
  have key : ∀ {u : Unit'} {q m : ℤ} {fs : FrameSet} {h : List HEv} {f : Frame}, Spec.Accepted u q → 1 ≤ m → Feeds u q m fs h →
      Spec.InOrder h → Spec.NoneSkipped u q h → f ∈ fs.view → f.periodStart = s → f.periodEnd = some e → Spec.PeriodFrame h s e f := by
    intro u q m fs h f ha hm hF ho hz hf h1 h2
    have hT := accepted_tiles ha
    obtain ⟨j, hj⟩ := List.mem_iff_getElem?.mp hf
    obtain ⟨a, b, g1, g2⟩ := feeds_ne hm hF hj
    obtain ⟨k, -, -, hc⟩ := timed_view hT hm hF ho hz g1 g2 hj
    have := period_frame hc
    have e1 := this.start.symm.trans h1
    have e2 := Option.some.inj (this.stop.symm.trans h2)
    rw [e1, e2] at this
    exact this
  exact (key ha hm hF ho hz hf h1 h3).unique (key ha' hm' hF' ho' hz' hf' h2 h4) hs hb

/-- Timeframes with the same aligned instants number them alike, up to an offset. -/
theorem grid_shift {u u' : Unit'} {q q' : ℤ} (hT : Tiles u q) (hT' : Tiles u' q')
    (hA : ∀ a, Spec.Aligned u q a ↔ Spec.Aligned u' q' a) : ∃ c, ∀ k, grid u' q' k = grid u q (k + c) := by
  obtain ⟨c, hc⟩ := (aligned_iff_grid hT _).mp ((hA _).mpr ((aligned_iff_grid hT' (grid u' q' 0)).mpr ⟨0, rfl⟩))
  refine ⟨c, fun k => ?_⟩
  induction k using Int.induction_on with
  | zero => rw [hc, zero_add]
  | succ i ih =>
    obtain ⟨a1, a2, a3⟩ := grid_next hT (i + c)
    obtain ⟨b1, b2, b3⟩ := grid_next hT' i
    rw [show (i : ℤ) + 1 + c = i + c + 1 by ring]
    exact le_antisymm (b3 _ ((hA _).mp a1) (by rw [ih]; exact a2)) (a3 _ ((hA _).mpr b1) (by rw [← ih]; exact b2))
  | pred i ih =>
    obtain ⟨a1, a2, a3⟩ := grid_next hT (-i - 1 + c)
    obtain ⟨b1, b2, b3⟩ := grid_next hT' (-i - 1)
    rw [show (-i : ℤ) - 1 + c + 1 = -i + c by ring] at a1 a2 a3
    rw [show (-i : ℤ) - 1 + 1 = -i by ring] at b1 b2 b3
    have al : ∀ k, Spec.Aligned u q (grid u q k) := fun k => (aligned_iff_grid hT _).mpr ⟨k, rfl⟩
    have al' : ∀ k, Spec.Aligned u' q' (grid u' q' k) := fun k => (aligned_iff_grid hT' _).mpr ⟨k, rfl⟩
    by_contra hne
    rcases lt_or_gt_of_ne hne with hlt | hlt
    · have := b3 _ ((hA _).mp (al _)) hlt
      rw [ih] at this
      exact absurd this (not_le.mpr a2)
    · have := a3 _ ((hA _).mpr (al' _)) hlt
      rw [← ih] at this
      exact absurd this (not_le.mpr b2)

theorem gidx_shift {u u' : Unit'} {q q' : ℤ} (hT : Tiles u q) (hT' : Tiles u' q') {c : ℤ}
    (hc : ∀ k, grid u' q' k = grid u q (k + c)) (w : ℤ) : gidx u q w = gidx u' q' w + c := by
  obtain ⟨h1, h2⟩ := gidx_spec hT' w
  rw [hc] at h1 h2
  exact (gidx_unique hT h1 (by rw [show gidx u' q' w + c + 1 = gidx u' q' w + 1 + c by ring]; exact h2))

/-- C66: timeframes with the same boundaries, fed with the same ticks: what the set with the smaller memory shows is the end of
what the other one shows. -/
theorem C66_memory_and_unit (u u' : Unit') (q q' m m' : ℤ) (ha : Spec.Accepted u q) (ha' : Spec.Accepted u' q') (hm : 1 ≤ m)
    (hmm : m ≤ m') (hA : ∀ a, Spec.Aligned u q a ↔ Spec.Aligned u' q' a) (fs fs' : FrameSet) (h h' : List HEv)
    (hF : Feeds u q m fs h) (hF' : Feeds u' q' m' fs' h') (hh : h.map HEv.tick = h'.map HEv.tick) (ho : Spec.InOrder h)
    (hz : Spec.NoneSkipped u q h) (hz' : Spec.NoneSkipped u' q' h') :
    fs.view.map Spec.face <:+ fs'.view.map Spec.face ∧ (m = m' → fs.view.map Spec.face = fs'.view.map Spec.face) := by
  have hT := accepted_tiles ha
  have hT' := accepted_tiles ha'
  have ho' : Spec.InOrder h' := by
    have : (h.map HEv.tick).Pairwise (fun a b => a.dt.wall ≤ b.dt.wall) := List.pairwise_map.mpr ho
    rw [hh] at this
    rw [List.pairwise_map] at this
    exact this
  have hB := feeds_timed hT hm hF ho (keeps_of_noneSkipped hT hz)
  have hB' := feeds_timed hT' (hm.trans hmm) hF' ho' (keeps_of_noneSkipped hT' hz')
  have hl := (hB.rep hm).view_length
  have hl' := (hB'.rep (hm.trans hmm)).view_length
  rw [hB.fields.2.2] at hl
  rw [hB'.fields.2.2] at hl'
  obtain ⟨c, hc⟩ := grid_shift hT hT' hA
  have hg := gidx_shift hT hT' hc
  have hw : ∀ {x x' : HEv}, x.tick = x'.tick → gidx u q x.wall = gidx u' q' x'.wall + c := by
    intro x x' e
    rw [hg]
    unfold HEv.wall
    rw [e]
  -- first and last ticks agree
  have hend : ∀ a b, h.head? = some a → h.getLast? = some b →
      ∃ a' b', h'.head? = some a' ∧ h'.getLast? = some b' ∧ a.tick = a'.tick ∧ b.tick = b'.tick := by
    intro a b h1 h2
    have e1 := congrArg List.head? hh
    have e2 := congrArg List.getLast? hh
    rw [List.head?_map, List.head?_map, h1] at e1
    rw [List.getLast?_map, List.getLast?_map, h2] at e2
    obtain ⟨a', f1, f2⟩ := Option.map_eq_some_iff.mp e1.symm
    obtain ⟨b', f3, f4⟩ := Option.map_eq_some_iff.mp e2.symm
    exact ⟨a', b', f1, f3, f2.symm, f4.symm⟩
  have hlen : (timedAF u q h).length = (timedAF u' q' h').length := by
    rcases h0 : h with _ | ⟨a0, hs⟩
    · rw [h0] at hh
      have : h' = [] := List.map_eq_nil_iff.mp hh.symm
      rw [this]
      rfl
    · rw [← h0]
      have hne : h ≠ [] := by rw [h0]; simp
      obtain ⟨a', b', f1, f2, f3, f4⟩ := hend _ _ (List.head?_eq_some_head hne) (List.getLast?_eq_some_getLast hne)
      unfold timedAF
      rw [List.head?_eq_some_head hne, List.getLast?_eq_some_getLast hne, f1, f2]
      simp only [List.length_map, List.length_range]
      rw [hw f3, hw f4]
      congr 1
      ring
  have key : ∀ (d : ℕ) (x x' : Frame), fs.view[d]? = some x → fs'.view[fs'.view.length - fs.view.length + d]? = some x' →
      Spec.face x = Spec.face x' := by
    intro d x x' hx hx'
    obtain ⟨a, b, g1, g2⟩ := feeds_ne hm hF hx
    obtain ⟨a', b', f1, f2, f3, f4⟩ := hend a b g1 g2
    obtain ⟨k, hk, -, hcore⟩ := timed_view hT hm hF ho hz g1 g2 hx
    obtain ⟨k', hk', -, hcore'⟩ := timed_view hT' (hm.trans hmm) hF' ho' hz' f1 f2 hx'
    have hkk : k = k' + c := by
      rw [hk, hk', hw f3, ← hlen]
      have : (timedAF u q h).length - m.toNat + d =
          (timedAF u q h).length - m'.toNat + (fs'.view.length - fs.view.length + d) := by omega
      rw [this]
      ring
    have P := period_frame hcore
    have P' := period_frame hcore'
    rw [hc, hc, show k' + 1 + c = k' + c + 1 by ring, ← hkk] at P'
    exact P.unique P' (by unfold Spec.ticksIn; rw [hh]) (fun _ => by rw [hh])
  have hle : fs.view.length ≤ fs'.view.length := by omega
  have hsuf : fs.view.map Spec.face = (fs'.view.map Spec.face).drop (fs'.view.length - fs.view.length) := by
    apply List.ext_getElem?
    intro d
    rw [List.getElem?_drop, List.getElem?_map, List.getElem?_map]
    rcases hx : fs.view[d]? with _ | x
    · have := List.getElem?_eq_none_iff.mp hx
      rw [List.getElem?_eq_none (by omega)]
    · have h1 := (List.getElem?_eq_some_iff.mp hx).1
      have h2 : fs'.view.length - fs.view.length + d < fs'.view.length := by omega
      rw [List.getElem?_eq_getElem h2]
      simp only [Option.map_some]
      rw [key d x _ hx (List.getElem?_eq_getElem h2)]
  refine ⟨hsuf ▸ List.drop_suffix _ _, ?_⟩
  intro hmeq
  have : fs'.view.length - fs.view.length = 0 := by omega
  rw [hsuf, this, List.drop_zero]

/-- C66 for frames of a number of ticks, of sets registered on an epic. -/
theorem C66_tick_memory (q m m' : ℤ) (hq : 1 ≤ q) (hm : 1 ≤ m) (hmm : m ≤ m') (fs fs' : FrameSet) (h h' : List HEv)
    (hF : Feeds .tick q m fs h) (hF' : Feeds .tick q m' fs' h') (hh : h.map HEv.tick = h'.map HEv.tick) (he : Spec.FromEpic h)
    (he' : Spec.FromEpic h') :
    fs.view.map Spec.face <:+ fs'.view.map Spec.face ∧ (m = m' → fs.view.map Spec.face = fs'.view.map Spec.face) := by
  obtain ⟨N, n1, n2, n3, n4, n5⟩ := C10_tick_blocks_partial q m hq hm fs h hF he
  obtain ⟨N', n1', n2', n3', n4', n5'⟩ := C10_tick_blocks_partial q m' hq (hm.trans hmm) fs' h' hF' he'
  have hlen : h.length = h'.length := by simpa using congrArg List.length hh
  have hN : N = N' := by
    by_cases h0 : h = []
    · have : h' = [] := by rw [h0] at hlen; exact List.length_eq_zero_iff.mp hlen.symm
      rw [n3 h0, n3' this]
    · have h0' : h' ≠ [] := fun e => h0 (by rw [e] at hlen; exact List.length_eq_zero_iff.mp hlen)
      obtain ⟨a1, a2⟩ := n2 h0
      obtain ⟨b1, b2⟩ := n2' h0'
      rw [hlen] at a1 n1
      have c1 : N - 1 < N' := lt_of_mul_lt_mul_right (lt_of_lt_of_le a1 n1') (Nat.zero_le _)
      have c2 : N' - 1 < N := lt_of_mul_lt_mul_right (lt_of_lt_of_le b1 n1) (Nat.zero_le _)
      omega
  have hblock : ∀ n k, Spec.tickBlock h n k = Spec.tickBlock h' n k := fun n k => by unfold Spec.tickBlock; rw [hh]
  have hle : fs.view.length ≤ fs'.view.length := by omega
  have hle2 : fs'.view.length ≤ N' := by omega
  have hsuf : fs.view.map Spec.face = (fs'.view.map Spec.face).drop (fs'.view.length - fs.view.length) := by
    apply List.ext_getElem?
    intro d
    rw [List.getElem?_drop, List.getElem?_map, List.getElem?_map]
    rcases hx : fs.view[d]? with _ | x
    · have := List.getElem?_eq_none_iff.mp hx
      rw [List.getElem?_eq_none (by omega)]
    · have h1 := (List.getElem?_eq_some_iff.mp hx).1
      have h2 : fs'.view.length - fs.view.length + d < fs'.view.length := by omega
      rcases hx' : fs'.view[fs'.view.length - fs.view.length + d]? with _ | x'
      · have := List.getElem?_eq_none_iff.mp hx'; omega
      · simp only [Option.map_some]
        obtain ⟨a1, a2, a3, a4⟩ := n5 d x hx
        obtain ⟨b1, b2, b3, b4⟩ := n5' _ x' hx'
        rw [show N' - fs'.view.length + (fs'.view.length - fs.view.length + d) = N - fs.view.length + d by omega, ← hblock] at b2 b3
        obtain ⟨c1, c2, c3, c4⟩ := a3.unique b3
        unfold Spec.face
        rw [a1, b1, a2, b2, a4, b4, c1, c2, c3, c4]
  refine ⟨hsuf ▸ List.drop_suffix _ _, ?_⟩
  intro hmeq
  have : fs'.view.length - fs.view.length = 0 := by omega
  rw [hsuf, this, List.drop_zero]

end

/-- C66: sixty seconds are a minute, sixty minutes an hour, seven days a week, twelve months a year. -/
theorem C66_equivalent_units (a : ℤ) :
    (Spec.Aligned .second 60 a ↔ Spec.Aligned .minute 1 a) ∧ (Spec.Aligned .minute 60 a ↔ Spec.Aligned .hour 1 a) ∧
    (Spec.Aligned .day 7 a ↔ Spec.Aligned .week 1 a) ∧ (Spec.Aligned .month 12 a ↔ Spec.Aligned .year 1 a) := by
  have hm : 1 ≤ monthOf a ∧ monthOf a ≤ 12 := by
    obtain ⟨⟨m1, m2, _⟩, _⟩ := ord2ymd_spec (ordOf a)
    exact ⟨m1, m2⟩
  simp only [Spec.Aligned, Int.emod_one, true_and]
  refine ⟨?_, ?_, ?_, ?_⟩
  · have : 0 ≤ secondOf a ∧ secondOf a < 60 := by unfold secondOf; omega
    constructor
    · rintro ⟨h1, h2⟩; omega
    · rintro ⟨h1, h2⟩; omega
  · have : 0 ≤ minuteOf a ∧ minuteOf a < 60 := by unfold minuteOf; omega
    constructor
    · rintro ⟨h1, h2⟩; omega
    · rintro ⟨h1, h2⟩; omega
  · have : 0 ≤ weekdayOf a ∧ weekdayOf a < 7 := by unfold weekdayOf; omega
    constructor
    · rintro ⟨h1, h2⟩; omega
    · rintro ⟨h1, h2⟩; omega
  · constructor
    · rintro ⟨h1, h2⟩; omega
    · rintro ⟨h1, h2⟩; omega

/-! ## Concrete cases -/

private def ticks : List (Ctx × Tick) := [Demo.at' 0 true 10, Demo.at' 30 true 12, Demo.at' 150 true 7, Demo.at' 170 true 5]

private theorem utc_kept {u : Unit'} {q : ℤ} {h : List HEv} {l : List (Ctx × Tick)} (he : h.map (fun e => (e.ctx, e.tick)) = l)
    (hl : ∀ p ∈ l, p.1.zone = Zone.utc) : Spec.NoneSkipped u q h := by
  subst he
  intro e hm _ _ n _ _ _
  have := hl (e.ctx, e.tick) (List.mem_map_of_mem hm)
  simp only at this
  rw [this]; rfl

private theorem ticks_of {h h' : List HEv} {l l' : List (Ctx × Tick)} (he : h.map (fun e => (e.ctx, e.tick)) = l)
    (he' : h'.map (fun e => (e.ctx, e.tick)) = l') (hl : l.map Prod.snd = l'.map Prod.snd) :
    h.map HEv.tick = h'.map HEv.tick := by
  have : ∀ h : List HEv, h.map HEv.tick = (h.map (fun e => (e.ctx, e.tick))).map Prod.snd := by
    intro h; rw [List.map_map]; rfl
  rw [this h, this h', he, he', hl]

/-- C66: frames of sixty seconds, two in memory, and frames of one minute, ten in memory: three minutes, the second without
ticks. -/
example : letI := Arith.exact
    ∃ fs h fs' h', Feeds .second 60 2 fs h ∧ Feeds .minute 1 10 fs' h' ∧ h.map HEv.tick = h'.map HEv.tick ∧ Spec.InOrder h ∧
      Spec.NoneSkipped .second 60 h ∧ Spec.NoneSkipped .minute 1 h' ∧ Spec.Accepted .second 60 ∧ Spec.Accepted .minute 1 ∧
      fs.view.map (fun f => (f.nbTicks, f.high.value)) = [(1, 12), (2, 7)] ∧
      fs'.view.map (fun f => (f.nbTicks, f.high.value)) = [(2, 12), (1, 12), (2, 7)] ∧
      fs.view.map Spec.face <:+ fs'.view.map Spec.face := by
  letI := Arith.exact
  obtain ⟨fs, h, a1, a2, a3⟩ := feeds0 (u := .second) (q := 60) (m := 2) (l := ticks) (by decide) (by decide +kernel)
  obtain ⟨fs', h', b1, b2, b3⟩ := feeds0 (u := .minute) (q := 1) (m := 10) (l := ticks) (by decide) (by decide +kernel)
  have ho : Spec.InOrder h := by
    have : (ticks).Pairwise (fun a b => a.2.dt.wall ≤ b.2.dt.wall) := by decide +kernel
    rw [← a2, List.pairwise_map] at this
    exact this
  have hu : ∀ p ∈ ticks, p.1.zone = Zone.utc := by simp [ticks, Demo.at']
  have hh := ticks_of a2 b2 rfl
  exact ⟨fs, h, fs', h', a1, b1, hh, ho, utc_kept a2 hu, utc_kept b2 hu, ⟨rfl, by decide, by decide⟩, ⟨rfl, by decide, by decide⟩,
    Demo.obs a3 (g := fun fs => fs.view.map (fun f => (f.nbTicks, f.high.value))) (by decide +kernel),
    Demo.obs b3 (g := fun fs => fs.view.map (fun f => (f.nbTicks, f.high.value))) (by decide +kernel),
    (C66_memory_and_unit .second .minute 60 1 2 10 ⟨rfl, by decide, by decide⟩ ⟨rfl, by decide, by decide⟩ (by decide) (by decide)
      (fun a => (C66_equivalent_units a).1) fs fs' h h' a1 b1 hh ho (utc_kept a2 hu) (utc_kept b2 hu)).1⟩

/-- C66, locality: two histories that agree only in the third minute. -/
example : letI := Arith.exact
    ∃ fs h fs' h' f f', Feeds .minute 1 10 fs h ∧ Feeds .minute 1 10 fs' h' ∧ f ∈ fs.view ∧ f' ∈ fs'.view ∧
      f.periodStart = f'.periodStart ∧ Spec.ticksIn h f.periodStart (f.periodStart + minUs) =
        Spec.ticksIn h' f.periodStart (f.periodStart + minUs) ∧ f.high.value = 7 ∧ f'.high.value = 7 ∧
      fs.view.length = 3 ∧ fs'.view.length = 4 ∧ h.map HEv.tick ≠ h'.map HEv.tick := by
  letI := Arith.exact
  obtain ⟨fs, h, a1, a2, a3⟩ := feeds0 (u := .minute) (q := 1) (m := 10) (l := ticks) (by decide) (by decide +kernel)
  obtain ⟨fs', h', b1, b2, b3⟩ := feeds0 (u := .minute) (q := 1) (m := 10) (l := [Demo.at' 70 true 3, Demo.at' 150 true 7,
    Demo.at' 170 true 5, Demo.at' 290 true 8]) (by decide) (by decide +kernel)
  have k1 := Demo.obs a3 (g := fun fs => fs.view.map (fun f => (f.periodStart, f.high.value)))
    (x := [(Demo.monday, 12), (Demo.monday + 60 * secUs, 12), (Demo.monday + 120 * secUs, 7)]) (by decide +kernel)
  have k2 := Demo.obs b3 (g := fun fs => fs.view.map (fun f => (f.periodStart, f.high.value)))
    (x := [(Demo.monday + 60 * secUs, 3), (Demo.monday + 120 * secUs, 7), (Demo.monday + 180 * secUs, 5), (Demo.monday + 240 * secUs, 8)])
    (by decide +kernel)
  rcases hv : fs.view with _ | ⟨x0, _ | ⟨x1, _ | ⟨x2, _ | ⟨x3, l⟩⟩⟩⟩ <;> rw [hv] at k1 <;> simp at k1
  rcases hw : fs'.view with _ | ⟨y0, _ | ⟨y1, _ | ⟨y2, _ | ⟨y3, _ | ⟨y4, l'⟩⟩⟩⟩⟩ <;> rw [hw] at k2 <;> simp at k2
  have tk : ∀ h : List HEv, h.map HEv.tick = (h.map (fun e => (e.ctx, e.tick))).map Prod.snd := by
    intro h; rw [List.map_map]; rfl
  refine ⟨fs, h, fs', h', x2, y1, a1, b1, by rw [hv]; simp, by rw [hw]; simp, by rw [k1.2.2.1, k2.2.1.1], ?_, k1.2.2.2, k2.2.1.2,
    by rw [hv]; rfl, by rw [hw]; rfl, ?_⟩
  · unfold Spec.ticksIn
    rw [tk h, tk h', a2, b2, k1.2.2.1]
    decide +kernel
  · rw [tk h, tk h', a2, b2]
    decide +kernel

end Estrade
