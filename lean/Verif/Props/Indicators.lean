import Verif.Lemmas.Candles
import Verif.Lemmas.Quad
import Verif.Lemmas.Samples
import Verif.Props.Frames

/-!
# C40 - C44, C50, C51: indicator values, candles and pivots
(estrade/graph/base_indicator.py, estrade/graph/indicators/candle_set.py, estrade/graph/indicators/pivot.py)
-/

set_option linter.style.haveILetI false
set_option linter.unusedSectionVars false
set_option autoImplicit false

namespace Estrade

section
variable [Arith]

/-! ## C40 -/

/-- Spec: `o` is the value of the indicator for exactly these ticks; there is one iff there is a tick. -/
def Spec.ValueOf (ind : Indicator) (ts : List Tick) (o : Option IndVal) : Prop :=
  (ts = [] ∧ o = none) ∨
  (ts ≠ [] ∧ ∃ v, o = some v ∧ v.ind = ind ∧ Spec.Summary ts v.first v.high v.low v.last)

theorem valueOf_evs {r : String} {i : ℕ} {ind : Indicator} {evs : List Ev} {o : Option IndVal}
    (h : ValOk r i (scan r evs) o) (hr : ∀ e ∈ evs, e.reg.get? r = some ind) :
    Spec.ValueOf ind ((evs.filter (fun e => !ind.marketOpenOnly || e.mo)).map Ev.tick) o := by
  rw [scan_const hr] at h
  split_ifs at h with h0
  · exact .inl ⟨by rw [h0]; rfl, h⟩
  · obtain ⟨v, e1, e2, -, -, e5⟩ := h
    exact .inr ⟨by simpa using h0, v, e1, e2, e5⟩

/-- C40: the deliveries are cut into groups (`Spec.Groups`: each tick joins the last group or starts a new
one, possibly after filler groups repeating the previous tick), one per frame; the frame summarises its group, and
so does the value of every indicator registered during it, restricted to the deliveries with an open market if it
is `market_open_only`.  There is no value under other references. -/
theorem C40_values (u : Unit') (q m : ℤ) (hm : 1 ≤ m) (fs : FrameSet) (h : List HEv) (hF : Feeds u q m fs h) :
    ∃ G : List (List Ev), Spec.Groups h G ∧ G.length = fs.heap.length ∧
    ∀ (i : ℕ) (f : Frame) (g : List Ev), fs.heap[i]? = some f → G[i]? = some g →
      f.nbTicks = g.length ∧ Spec.Summary (g.map Ev.tick) f.first f.high f.low f.last ∧
      (∀ (r : String) (ind : Indicator), (∀ e ∈ g, e.reg.get? r = some ind) →
        Spec.ValueOf ind ((g.filter (fun e => !ind.marketOpenOnly || e.mo)).map Ev.tick) (f.get r)) ∧
      (∀ r : String, (∀ e ∈ g, e.reg.get? r = none) → f.get r = none) := by
  obtain ⟨A, hB, hG⟩ := feeds_groups hm hF
  have hR := hB.rep hm
  refine ⟨A.map AF.evs, hG, by rw [List.length_map, hR.len], ?_⟩
  intro i f g hf hg
  rw [List.getElem?_map] at hg
  obtain ⟨a, ha, rfl⟩ := Option.map_eq_some_iff.mp hg
  have hc := hR.core i a f ha hf
  refine ⟨hc.count, hc.sum, ?_, ?_⟩
  · intro r ind hr
    exact valueOf_evs (hB.indRep hm r i a f ha hf) hr
  · intro r hr
    have := hB.indRep hm r i a f ha hf
    rw [scan_unregistered hr] at this
    exact this

/-- Spec: the ticks of these deliveries that count for the indicator. -/
def Spec.Eligible (ind : Indicator) (h : List HEv) : List Tick :=
  (h.filter (fun x => !ind.marketOpenOnly || x.ctx.marketOpen)).map HEv.tick

theorem eligible_eq (ind : Indicator) (h : List HEv) :
    ((h.map HEv.ev).filter (fun e => !ind.marketOpenOnly || e.mo)).map Ev.tick = Spec.Eligible ind h := by
  rw [List.filter_map, List.map_map]; rfl

/-- Spec: the deliveries of a period. -/
def Spec.eventsIn (h : List HEv) (s e : ℤ) : List HEv :=
  h.filter (fun x => decide (s ≤ x.tick.dt.wall) && decide (x.tick.dt.wall < e))

/-- C40 for timed frames: the value on the frame of the period `[s, e)` is that of the eligible ticks with
datetimes in the period; if no tick has, that of the last tick before the period, provided it is eligible at the
delivery of the next tick (which created the frame). -/
theorem C40_timed_frames (u : Unit') (q m : ℤ) (ha : Spec.Accepted u q) (hm : 1 ≤ m) (fs : FrameSet) (h : List HEv)
    (hF : Feeds u q m fs h) (ho : Spec.InOrder h) (hz : Spec.NoneSkipped u q h) (f : Frame) (hf : f ∈ fs.view) :
    ∃ s e, f.periodStart = s ∧ f.periodEnd = some e ∧
    ∀ (r : String) (ind : Indicator), (∀ x ∈ h, s ≤ x.tick.dt.wall → x.reg.get? r = some ind) →
      (Spec.eventsIn h s e ≠ [] → Spec.ValueOf ind (Spec.Eligible ind (Spec.eventsIn h s e)) (f.get r)) ∧
      (Spec.eventsIn h s e = [] → ∃ p n,
        (h.filter (fun x => decide (x.tick.dt.wall < s))).getLast? = some p ∧
        (h.filter (fun x => decide (e ≤ x.tick.dt.wall))).head? = some n ∧
        Spec.ValueOf ind (if !ind.marketOpenOnly || n.ctx.marketOpen then [p.tick] else []) (f.get r)) := by
  have hT := accepted_tiles ha
  obtain ⟨j, hj⟩ := List.mem_iff_getElem?.mp hf
  obtain ⟨a, b, h1, h2⟩ := feeds_ne hm hF hj
  have hB := feeds_timed hT hm hF ho (keeps_of_noneSkipped hT hz)
  have hR := hB.rep hm
  obtain ⟨x, hx, hc⟩ := hR.view_core hj
  rw [hR.view_get] at hj
  have hv := fun r => hB.indRep hm r _ _ f hx hj
  obtain ⟨s, e, hlt0, rfl⟩ : ∃ s e, s < e ∧ x = periodAF h s e :=
    ⟨_, _, grid_strictMono hT (lt_add_one _), (timedAF_get h1 h2 hx).2⟩
  refine ⟨s, e, hc.start, hc.stop, ?_⟩
  intro r ind hr
  constructor
  · intro hne
    have hi : inside h s e ≠ [] := hne
    have := hv r
    simp only [periodAF, if_neg hi] at this
    have := valueOf_evs this (ind := ind) ?_
    · rw [eligible_eq] at this; exact this
    · intro y hy
      obtain ⟨z, hz, rfl⟩ := List.mem_map.mp hy
      unfold inside at hz
      obtain ⟨hz1, hz2⟩ := List.mem_filter.mp hz
      simp only [Bool.and_eq_true, decide_eq_true_eq] at hz2
      exact hr z hz1 hz2.1
  · intro hem
    have hi : inside h s e = [] := hem
    have h3 := hv r
    have hsum := hc.sum
    simp only [periodAF, if_pos hi] at h3 hsum
    change ∃ p n, (h.filter (fun x => decide (x.wall < s))).getLast? = some p ∧
      (h.filter (fun x => decide (e ≤ x.wall))).head? = some n ∧ _
    rcases hp : (h.filter (fun x => decide (x.wall < s))).getLast? with _ | p
    · rw [hp] at hsum
      have := hsum.first
      simp at this
    rcases hn : (h.filter (fun x => decide (e ≤ x.wall))).head? with _ | n
    · rw [hp, hn] at hsum
      have := hsum.first
      simp at this
    refine ⟨p, n, by first | rfl | exact hp, by first | rfl | exact hn, ?_⟩
    rw [hp, hn] at h3
    have hnm := List.mem_filter.mp (List.mem_of_head? hn)
    have hpm := List.mem_filter.mp (List.mem_of_getLast? hp)
    have hse : s ≤ n.tick.dt.wall := by
      by_contra hc'
      have hlt : n.wall < s := not_le.mp hc'
      have h4 := of_decide_eq_true hnm.2
      have hes : e ≤ s := h4.trans hlt.le
      omega
    have := valueOf_evs h3 (ind := ind) (by
      intro y hy
      rw [List.mem_singleton.mp hy]
      exact hr n hnm.1 hse)
    rw [List.filter_singleton] at this
    cases hm' : (!ind.marketOpenOnly || n.ctx.marketOpen)
    · simp only [hm'] at this ⊢
      exact this
    · simp only [hm'] at this ⊢
      exact this

/-- C40 for TICK frames of an epic: blocks of `q` ticks. -/
theorem C40_tick_frames (q m : ℤ) (hq : 1 ≤ q) (hm : 1 ≤ m) (fs : FrameSet) (h : List HEv)
    (hF : Feeds .tick q m fs h) (ha : Spec.FromEpic h) (i : ℕ) (f : Frame) (hf : fs.heap[i]? = some f)
    (r : String) (ind : Indicator) (hr : ∀ x ∈ (h.drop (i * q.toNat)).take q.toNat, x.reg.get? r = some ind) :
    Spec.ValueOf ind (Spec.Eligible ind ((h.drop (i * q.toNat)).take q.toNat)) (f.get r) := by
  have hB := feeds_tick hq hm hF ha
  have hR := hB.rep hm
  have hlt : i < (tickAF q.toNat h).length := by rw [← hR.len]; exact (List.getElem?_eq_some_iff.mp hf).1
  have ha' := List.getElem?_eq_getElem hlt
  have hv := hB.indRep hm r i _ f ha' hf
  have he : (tickAF q.toNat h)[i].evs = ((h.drop (i * q.toNat)).take q.toNat).map HEv.ev := by
    simp only [tickAF, List.getElem_map, List.getElem_range]; rfl
  rw [he] at hv
  have := valueOf_evs hv (ind := ind) (by
    intro y hy
    obtain ⟨z, hz, rfl⟩ := List.mem_map.mp hy
    exact hr z hz)
  rwa [eligible_eq] at this

/-! ## C41 -/

/-- C41: navigation from the value of a frame in memory: `previous` is the value of the nearest earlier frame
in memory that has one, `next` that of the next frame. -/
theorem C41_navigation (u : Unit') (q m : ℤ) (hm : 1 ≤ m) (fs : FrameSet) (h : List HEv) (hF : Feeds u q m fs h)
    (j : ℕ) (f : Frame) (hf : fs.view[j]? = some f) (r : String) (v : IndVal) (hv : f.get r = some v) :
    (∀ p, v.previous fs.heap = some p ↔ ∃ k g, k < j ∧ fs.view[k]? = some g ∧ g.get r = some p ∧
      ∀ (k' : ℕ) (g' : Frame), k < k' → k' < j → fs.view[k']? = some g' → g'.get r = none) ∧
    (v.previous fs.heap = none ↔ ∀ (k : ℕ) (g : Frame), k < j → fs.view[k]? = some g → g.get r = none) ∧
    v.next fs.heap = (fs.view[j + 1]?).bind (fun g => g.get r) := by
  obtain ⟨A, hB, -⟩ := feeds_built hm hF
  have hjl := (List.getElem?_eq_some_iff.mp hf).1
  have hnone : v.previous fs.heap = none ↔
      ∀ (k : ℕ) (g : Frame), k < j → fs.view[k]? = some g → g.get r = none := by
    rw [hB.previous hm hf hv, List.findSome?_eq_none_iff]
    constructor
    · intro h k g hk hg
      refine h g (List.mem_reverse.mpr (List.mem_iff_getElem?.mpr ⟨k, ?_⟩))
      rw [List.getElem?_take, if_pos hk]; exact hg
    · intro h g hg
      obtain ⟨k, hk⟩ := List.mem_iff_getElem?.mp (List.mem_reverse.mp hg)
      rw [List.getElem?_take] at hk
      split_ifs at hk with hkj
      exact h k g hkj hk
  refine ⟨?_, hnone, hB.next hm hf hv⟩
  intro p
  rw [hB.previous hm hf hv]
  have key : ∀ (l : List Frame), l.reverse.findSome? (fun g => g.get r) = some p ↔
      ∃ (k : ℕ) (g : Frame), l[k]? = some g ∧ g.get r = some p ∧
        ∀ (k' : ℕ) (g' : Frame), k < k' → l[k']? = some g' → g'.get r = none := by
    intro l
    induction l using List.reverseRecOn with
    | nil => simp
    | append_singleton l x ih =>
      rw [List.reverse_append, List.reverse_singleton, List.singleton_append, List.findSome?_cons]
      rcases hx : x.get r with _ | w
      · simp only
        rw [ih]
        constructor
        · rintro ⟨k, g, h1, h2, h3⟩
          have hk := (List.getElem?_eq_some_iff.mp h1).1
          refine ⟨k, g, by rw [List.getElem?_append_left hk]; exact h1, h2, ?_⟩
          intro k' g' hk' hg'
          rcases snoc_cases hg' with ⟨-, hg'⟩ | ⟨-, rfl⟩
          · exact h3 k' g' hk' hg'
          · exact hx
        · rintro ⟨k, g, h1, h2, h3⟩
          rcases snoc_cases h1 with ⟨hk, h1⟩ | ⟨-, rfl⟩
          · refine ⟨k, g, h1, h2, fun k' g' hk' hg' => h3 k' g' hk' ?_⟩
            rw [List.getElem?_append_left (List.getElem?_eq_some_iff.mp hg').1]; exact hg'
          · rw [hx] at h2; cases h2
      · simp only [Option.some.injEq]
        constructor
        · rintro rfl
          refine ⟨l.length, x, by simp, hx, fun k' g' hk' hg' => ?_⟩
          rcases snoc_cases hg' with ⟨h1, -⟩ | ⟨h1, -⟩ <;> omega
        · rintro ⟨k, g, h1, h2, h3⟩
          rcases snoc_cases h1 with ⟨hk, h1⟩ | ⟨-, rfl⟩
          · have := h3 l.length x hk (by simp)
            rw [hx] at this; cases this
          · rw [hx] at h2; cases h2; rfl
  rw [key]
  constructor
  · rintro ⟨k, g, h1, h2, h3⟩
    rw [List.getElem?_take] at h1
    split_ifs at h1 with hk
    refine ⟨k, g, hk, h1, h2, fun k' g' hk' hj' hg' => h3 k' g' hk' ?_⟩
    rw [List.getElem?_take, if_pos hj']; exact hg'
  · rintro ⟨k, g, hk, h1, h2, h3⟩
    refine ⟨k, g, by rw [List.getElem?_take, if_pos hk]; exact h1, h2, fun k' g' hk' hg' => ?_⟩
    rw [List.getElem?_take] at hg'
    split_ifs at hg' with hj'
    exact h3 k' g' hk' hj' hg'

/-- C41: values of frames dropped from memory lead nowhere. -/
theorem C41_dropped_frames (u : Unit') (q m : ℤ) (hm : 1 ≤ m) (fs : FrameSet) (h : List HEv) (hF : Feeds u q m fs h)
    (i : ℕ) (f : Frame) (hf : fs.heap[i]? = some f) (hi : i + m.toNat < fs.heap.length) (r : String) (v : IndVal)
    (hv : f.get r = some v) : v.previous fs.heap = none ∧ v.next fs.heap = none := by
  obtain ⟨A, hB, -⟩ := feeds_built hm hF
  have hM : fs.maxFrames = m := hB.fields.2.2
  refine hB.evicted hm hf ?_ hv
  rw [hM, ← (hB.rep hm).len]; omega

/-! ## C42 -/

/-- The ticks behind any value of any frame. -/
theorem feeds_summary {u : Unit'} {q m : ℤ} (hm : 1 ≤ m) {fs : FrameSet} {h : List HEv} (hF : Feeds u q m fs h)
    {f : Frame} (hf : f ∈ fs.heap) {r : String} {v : IndVal} (hv : f.get r = some v) :
    ∃ ts, Spec.Summary ts v.first v.high v.low v.last := by
  obtain ⟨A, hB, -⟩ := feeds_built hm hF
  obtain ⟨i, hi⟩ := List.mem_iff_getElem?.mp hf
  obtain ⟨-, -, -, ts, -, -, hs⟩ := hB.value_core hm hi hv
  exact ⟨ts, hs⟩

theorem Tick.value_float (t : Tick) : fl t.value = t.value := fl_rnd _

theorem rnd_value (t : Tick) : rnd t.value = t.value := by
  unfold Tick.value
  exact rnd_rnd (fl_idem _)

/-- C42, order: any float format. -/
theorem C42_order (u : Unit') (q m : ℤ) (hm : 1 ≤ m) (fs : FrameSet) (h : List HEv) (hF : Feeds u q m fs h)
    (f : Frame) (hf : f ∈ fs.heap) (r : String) (v : IndVal) (hv : f.get r = some v) :
    jLow v ≤ jOpen v ∧ jOpen v ≤ jHigh v ∧ jLow v ≤ jLast v ∧ jLast v ≤ jHigh v ∧
    (jOpen v = v.first.value ∧ jHigh v = v.high.value ∧ jLow v = v.low.value ∧ jLast v = v.last.value) := by
  obtain ⟨ts, hs⟩ := feeds_summary hm hF hf hv
  exact ⟨rnd_mono (hs.low_le _ hs.first_mem), rnd_mono (hs.le_high _ hs.first_mem),
    rnd_mono (hs.low_le _ hs.last_mem), rnd_mono (hs.le_high _ hs.last_mem),
    rnd_value _, rnd_value _, rnd_value _, rnd_value _⟩

/-- Candles in general: ordered open, high, low and last. -/
def Spec.Ordered (c : Ohlc) : Prop := c.lo ≤ c.op ∧ c.op ≤ c.hi ∧ c.lo ≤ c.la ∧ c.la ≤ c.hi

/-- C42 (full) for one candle. -/
def Spec.Geometry (c : Ohlc) : Prop :=
  ∃ b hd tl, c.body = some b ∧ c.head = some hd ∧ c.tail = some tl ∧ 0 ≤ b ∧ 0 ≤ hd ∧ 0 ≤ tl ∧
    b + hd + tl = c.height ∧
    c.color = some (if c.op < c.la then .green else if c.la < c.op then .red else .black)

theorem ohlc_parts {c : Ohlc} (ho : Spec.Ordered c) (h0 : c.op ≠ 0 ∧ c.la ≠ 0) :
    ∃ b hd tl, c.body = some b ∧ c.head = some hd ∧ c.tail = some tl ∧ 0 ≤ b ∧ 0 ≤ hd ∧ 0 ≤ tl ∧ 0 ≤ c.height ∧
    c.color = some (if c.op < c.la then .green else if c.la < c.op then .red else .black) := by
  obtain ⟨h1, h2, h3, h4⟩ := ho
  have hn : ¬ (c.op = 0 ∨ c.la = 0) := by tauto
  refine ⟨rnd |fsub c.op c.la|, rnd (fsub c.hi (max c.op c.la)), rnd (fsub (min c.op c.la) c.lo),
    if_neg hn, if_neg hn, if_neg hn, rnd_nonneg (abs_nonneg _), rnd_nonneg (fsub_nonneg (max_le h2 h4)),
    rnd_nonneg (fsub_nonneg (le_min h1 h3)), fsub_nonneg (h1.trans h2), ?_⟩
  unfold Ohlc.color
  rw [if_neg hn]
  split_ifs <;> rfl

/-- C42, parts: not negative and coloured, any float format, when neither the open nor the last is 0.  Missing:
candles that open or end at 0 (false: `C42_false`). -/
theorem C42_parts_partial (u : Unit') (q m : ℤ) (hm : 1 ≤ m) (fs : FrameSet) (h : List HEv) (hF : Feeds u q m fs h)
    (f : Frame) (hf : f ∈ fs.heap) (r : String) (v : IndVal) (hv : f.get r = some v) (h0 : jOpen v ≠ 0 ∧ jLast v ≠ 0) :
    ∃ b hd tl, (jOhlc v).body = some b ∧ (jOhlc v).head = some hd ∧ (jOhlc v).tail = some tl ∧
      0 ≤ b ∧ 0 ≤ hd ∧ 0 ≤ tl ∧ 0 ≤ (jOhlc v).height ∧
      (jOhlc v).color =
        some (if jOpen v < jLast v then .green else if jLast v < jOpen v then .red else .black) := by
  obtain ⟨h1, h2, h3, h4, -⟩ := C42_order u q m hm fs h hF f hf r v hv
  exact ohlc_parts (c := jOhlc v) ⟨h1, h2, h3, h4⟩ h0

theorem isCent_value (hE : Exact) (t : Tick) : IsCent t.value := by
  unfold Tick.value; rw [rnd_exact hE]; exact isCent_cent _

theorem ohlc_sum (hE : Exact) {c : Ohlc} (h1 : IsCent c.op) (h2 : IsCent c.hi) (h3 : IsCent c.lo) (h4 : IsCent c.la)
    {b hd tl : ℚ} (hb : c.body = some b) (hh : c.head = some hd) (ht : c.tail = some tl) :
    b + hd + tl = c.height := by
  unfold Ohlc.body at hb
  unfold Ohlc.head at hh
  unfold Ohlc.tail at ht
  unfold Ohlc.height
  split_ifs at hb hh ht
  have hmax : IsCent (max c.op c.la) := by rcases max_choice c.op c.la with h | h <;> rw [h] <;> assumption
  have hmin : IsCent (min c.op c.la) := by rcases min_choice c.op c.la with h | h <;> rw [h] <;> assumption
  have habs : IsCent |c.op - c.la| := by
    rcases abs_choice (c.op - c.la) with h | h <;> rw [h]
    · exact h1.sub h4
    · exact (h1.sub h4).neg
  rw [fsub_exact hE, rnd_exact hE] at hb hh ht
  rw [fsub_exact hE]
  rw [habs.cent] at hb
  rw [(h2.sub hmax).cent] at hh
  rw [(hmin.sub h3).cent] at ht
  cases hb; cases hh; cases ht
  rcases le_total c.op c.la with h | h
  · rw [max_eq_right h, min_eq_left h, abs_of_nonpos (by linarith)]; ring
  · rw [max_eq_left h, min_eq_right h, abs_of_nonneg (by linarith)]; ring

/-- C42, sum: with exact arithmetic body, head and tail add up to the height (in binary64 they do not:
`C42_not_in_binary64`). -/
theorem C42_geometry_partial (hE : Exact) (u : Unit') (q m : ℤ) (hm : 1 ≤ m) (fs : FrameSet) (h : List HEv)
    (hF : Feeds u q m fs h) (f : Frame) (hf : f ∈ fs.heap) (r : String) (v : IndVal) (hv : f.get r = some v)
    (h0 : jOpen v ≠ 0 ∧ jLast v ≠ 0) : Spec.Geometry (jOhlc v) := by
  obtain ⟨b, hd, tl, e1, e2, e3, g1, g2, g3, -, hc⟩ := C42_parts_partial u q m hm fs h hF f hf r v hv h0
  obtain ⟨-, -, -, -, k1, k2, k3, k4⟩ := C42_order u q m hm fs h hF f hf r v hv
  refine ⟨b, hd, tl, e1, e2, e3, g1, g2, g3, ?_, hc⟩
  refine ohlc_sum hE ?_ ?_ ?_ ?_ e1 e2 e3
  · change IsCent (jOpen v); rw [k1]; exact isCent_value hE _
  · change IsCent (jHigh v); rw [k2]; exact isCent_value hE _
  · change IsCent (jLow v); rw [k3]; exact isCent_value hE _
  · change IsCent (jLast v); rw [k4]; exact isCent_value hE _

/-- C42 (full): every candle. -/
def Spec.C42 : Prop :=
  ∀ (u : Unit') (q m : ℤ), 1 ≤ m → ∀ (fs : FrameSet) (h : List HEv), Feeds u q m fs h →
  ∀ f ∈ fs.heap, ∀ (r : String) (v : IndVal), f.get r = some v → Spec.Geometry (jOhlc v)

/-! ## C43 -/

/-- Frames before the current one are not changed by any number of ticks, links apart. -/
theorem feedAll_bare {u : Unit'} {q m : ℤ} (hm : 1 ≤ m) (l : List (Ctx × Tick)) : ∀ {fs fs' : FrameSet} {h : List HEv},
    Feeds u q m fs h → feedAll fs l = .ok fs' →
    fs.heap.length ≤ fs'.heap.length ∧ (∃ h', Feeds u q m fs' h') ∧
    ∀ i, i + 1 < fs.heap.length → (fs'.heap[i]?).map Frame.bare = (fs.heap[i]?).map Frame.bare := by
  induction l with
  | nil =>
    intro fs fs' h hF hl
    cases hl
    exact ⟨le_rfl, ⟨h, hF⟩, fun _ _ => rfl⟩
  | cons p l ih =>
    intro fs fs' h hF hl
    rw [feedAll] at hl
    split at hl
    · cases hl
    · rename_i fs1 h1
      obtain ⟨a1, a2⟩ := C11_creations_append u q m hm fs fs1 h hF p.1 p.2 h1
      obtain ⟨b1, b2, b3⟩ := ih (Feeds.tick p.1 p.2 hF h1) hl
      exact ⟨a1.trans b1, b2, fun i hi => (b3 i (by omega)).trans (a2 i hi)⟩

theorem feedAll_append (fs : FrameSet) (l l' : List (Ctx × Tick)) :
    feedAll fs (l ++ l') = (feedAll fs l).bind (fun fs' => feedAll fs' l') := by
  induction l generalizing fs with
  | nil => rfl
  | cons p l ih =>
    rw [List.cons_append, feedAll, feedAll]
    split
    · rfl
    · exact ih _

/-- C43: the value on a frame that is not the current one is never changed, whatever ticks follow: its open,
high, low and last tick, hence `jOpen`, `jHigh`, `jLow`, `jLast` and `haLast`.  As long as the frame is in memory,
it is closed and its `close` is its `last`.  Missing: `close` after the frame was dropped from memory (false:
`C43_close_false`), Heikin-Ashi `open`, `high` and `low` after frames were dropped (false:
`C43_heikin_open_false`). -/
theorem C43_values_partial (u : Unit') (q m : ℤ) (hm : 1 ≤ m) (fs fs' : FrameSet) (h : List HEv)
    (hF : Feeds u q m fs h) (l : List (Ctx × Tick)) (hl : feedAll fs l = .ok fs') (i : ℕ) (f : Frame)
    (hf : fs.heap[i]? = some f) (hi : i + 1 < fs.heap.length) :
    ∃ f', fs'.heap[i]? = some f' ∧ (∀ r, f'.get r = f.get r) ∧
      (fs'.heap.length ≤ i + m.toNat → ∀ r v, f'.get r = some v →
        v.closed fs'.heap = true ∧ jClose fs'.heap v = some (jLast v) ∧ haClose fs'.heap v = some (haLast v)) := by
  obtain ⟨h1, ⟨h', hF'⟩, h2⟩ := feedAll_bare hm l hF hl
  have h3 := h2 i hi
  rw [hf] at h3
  obtain ⟨f', hf', hb⟩ := Option.map_eq_some_iff.mp h3
  refine ⟨f', hf', get_of_bare hb, ?_⟩
  intro hmem r v hv
  obtain ⟨A, hB, -⟩ := feeds_built hm hF'
  have hR := hB.rep hm
  have hM : fs'.maxFrames = m := hB.fields.2.2
  obtain ⟨e1, -⟩ := hB.value_core hm hf' hv
  have hc : v.closed fs'.heap = true := by
    unfold IndVal.closed IndVal.parent
    rw [e1, hf']
    simp only [Frame.closed]
    rw [hR.next i f' hf', hM, ← hR.len, if_pos (by omega)]; rfl
  refine ⟨hc, ?_, ?_⟩
  · unfold jClose; rw [if_pos hc]; rfl
  · unfold haClose; rw [if_pos hc]

theorem view_all {u : Unit'} {q m : ℤ} (hm : 1 ≤ m) {fs : FrameSet} {h : List HEv} (hF : Feeds u q m fs h)
    (hl : fs.heap.length ≤ m.toNat) : fs.view = fs.heap := by
  rw [(C11_memory_keeps_latest u q m hm fs h hF).2.1, Nat.sub_eq_zero_of_le hl, List.drop_zero]

/-- C43, Heikin-Ashi: nothing changes as long as no frame was dropped from memory. -/
theorem C43_heikin_partial (u : Unit') (q m : ℤ) (hm : 1 ≤ m) (fs fs' : FrameSet) (h : List HEv)
    (hF : Feeds u q m fs h) (l : List (Ctx × Tick)) (hl : feedAll fs l = .ok fs')
    (hmem : fs'.heap.length ≤ m.toNat) (r : String) (hH : AllHeikin fs' r) (i : ℕ) (f : Frame) (v : IndVal)
    (hf : fs.heap[i]? = some f) (hi : i + 1 < fs.heap.length) (hv : f.get r = some v) :
    haOpen fs'.heap v = haOpen fs.heap v ∧ haHigh fs'.heap v = haHigh fs.heap v ∧
    haLow fs'.heap v = haLow fs.heap v := by
  suffices haOpen fs'.heap v = haOpen fs.heap v by
    refine ⟨this, ?_, ?_⟩
    · unfold haHigh; rw [this]
    · unfold haLow; rw [this]
  obtain ⟨h1, ⟨h', hF'⟩, h2⟩ := feedAll_bare hm l hF hl
  obtain ⟨A, hB, -⟩ := feeds_built hm hF
  obtain ⟨A', hB', -⟩ := feeds_built hm hF'
  have hv1 := view_all hm hF (by omega)
  have hv2 := view_all hm hF' hmem
  have hH1 : ∀ k g, k + 1 < fs.heap.length → fs.heap[k]? = some g → ∀ w, g.get r = some w → w.ind.kind = .heikin := by
    intro k g hk hg w hw
    have h3 := h2 k hk
    rw [hg] at h3
    obtain ⟨g', hg', hb⟩ := Option.map_eq_some_iff.mp h3
    exact hH g' (List.mem_of_getElem? hg') w (by rw [get_of_bare hb]; exact hw)
  have hprev : ∀ (k : ℕ) (g : Frame) (w : IndVal), k + 1 < fs.heap.length → fs.heap[k]? = some g → g.get r = some w →
      w.previous fs'.heap = w.previous fs.heap := by
    intro k g w hk hg hw
    have h3 := h2 k hk
    rw [hg] at h3
    obtain ⟨g', hg', hb⟩ := Option.map_eq_some_iff.mp h3
    rw [hB.previous hm (j := k) (by rw [hv1]; exact hg) hw,
      hB'.previous hm (j := k) (by rw [hv2]; exact hg') (by rw [get_of_bare hb]; exact hw), hv1, hv2]
    have key : ∀ l : List Frame, l.reverse.findSome? (fun g => g.get r) =
        (l.map Frame.bare).reverse.findSome? (fun g => g.get r) := by
      intro l
      rw [← List.map_reverse, List.findSome?_map]; rfl
    rw [key, key (fs.heap.take k)]
    congr 2
    apply List.ext_getElem?
    intro x
    rw [List.getElem?_map, List.getElem?_map, List.getElem?_take, List.getElem?_take]
    split_ifs with hx
    · exact h2 x (by omega)
    · rfl
  have key : ∀ (n : ℕ) (k : ℕ), k < n → k + 1 < fs.heap.length → ∀ (g : Frame) (w : IndVal),
      fs.heap[k]? = some g → g.get r = some w → ∀ (x y : ℕ), k < x → k < y →
      haOpenFuel fs'.heap x w = haOpenFuel fs.heap y w := by
    intro n
    induction n with
    | zero => intro k hk; omega
    | succ n ih =>
      intro k hk hlen g w hg hw x y hx hy
      obtain ⟨x, rfl⟩ : ∃ x', x = x' + 1 := ⟨x - 1, by omega⟩
      obtain ⟨y, rfl⟩ : ∃ y', y = y' + 1 := ⟨y - 1, by omega⟩
      rw [haOpenFuel, haOpenFuel, hprev k g w hlen hg hw]
      rcases hp : w.previous fs.heap with _ | p
      · rfl
      · obtain ⟨j, g2, hj, hg2, hgp⟩ := hB.previous_lt hm hg hw hp
        simp only [hH1 j g2 (by omega) hg2 p hgp]
        rw [ih j (by omega) (by omega) g2 p hg2 hgp x y (by omega) (by omega)]
  exact key (i + 1) i (by omega) hi f v hf hv _ _ (by omega) (by omega)

/-- C43 (full): what is read from a closed candle does not change. -/
def Spec.C43 : Prop :=
  ∀ (u : Unit') (q m : ℤ), 1 ≤ m → ∀ (fs fs' : FrameSet) (h : List HEv), Feeds u q m fs h →
  ∀ (l : List (Ctx × Tick)), feedAll fs l = .ok fs' → ∀ (j : ℕ) (f : Frame) (r : String) (v : IndVal),
    fs.view[j]? = some f → j + 1 < fs.view.length → f.get r = some v →
    (v.ind.kind = .japanese → jClose fs'.heap v = jClose fs.heap v) ∧
    (v.ind.kind = .heikin → haOpen fs'.heap v = haOpen fs.heap v)

/-! ## C44 -/

theorem haOpen_float {u : Unit'} {q m : ℤ} (hm : 1 ≤ m) {fs : FrameSet} {A : List AF} (hB : Built u q m fs A)
    {r : String} (hH : AllHeikin fs r) {i : ℕ} {f : Frame} {v : IndVal} (hf : fs.heap[i]? = some f)
    (hv : f.get r = some v) : ∃ o, haOpen fs.heap v = .ok o ∧ rnd o = o := by
  rcases hB.haOpen hm hH hf hv with ⟨-, h⟩ | ⟨p, o, -, -, h⟩
  · exact ⟨_, h, rnd_rnd (Tick.value_float _)⟩
  · exact ⟨_, h, rnd_rnd (fl_idem _)⟩

theorem scan_mem {r : String} {evs : List Ev} {ind : Indicator} {ts : List Tick} (h : scan r evs = some (ind, ts)) :
    ∃ e ∈ evs, e.reg.get? r = some ind := by
  induction evs using List.reverseRecOn generalizing ind ts with
  | nil => cases h
  | append_singleton evs e ih =>
    unfold scan at ih h
    rw [List.foldl_append, List.foldl_cons, List.foldl_nil] at h
    have up : ∀ {ind ts}, evs.foldl (scanStep r) none = some (ind, ts) →
        ∃ e' ∈ evs ++ [e], e'.reg.get? r = some ind := fun h =>
      let ⟨e', h1, h2⟩ := ih h
      ⟨e', List.mem_append_left _ h1, h2⟩
    rcases hs : evs.foldl (scanStep r) none with _ | ⟨i, ts'⟩
    · rw [hs] at h
      unfold scanStep at h
      split at h
      · cases h
      · rename_i ind' hr
        simp only at h
        split_ifs at h
        cases h
        exact ⟨e, by simp, hr⟩
    · rw [hs] at h
      unfold scanStep at h
      split at h
      · cases h; exact up hs
      · simp only at h
        split_ifs at h <;> (cases h; exact up hs)

/-- If only Heikin-Ashi candles were ever registered under `r`, only such values are stored under it. -/
theorem allHeikin_of_registered {u : Unit'} {q m : ℤ} (hm : 1 ≤ m) {fs : FrameSet} {h : List HEv}
    (hF : Feeds u q m fs h) {r : String}
    (hr : ∀ x ∈ h, ∀ ind, x.reg.get? r = some ind → ind.kind = .heikin) : AllHeikin fs r := by
  obtain ⟨A, hB, hG⟩ := feeds_groups hm hF
  intro f hf v hv
  obtain ⟨i, hi⟩ := List.mem_iff_getElem?.mp hf
  obtain ⟨-, -, a, ts, ha, hs, -⟩ := hB.value_core hm hi hv
  obtain ⟨e, he, hre⟩ := scan_mem hs
  obtain ⟨x, hx, e1, -⟩ := hG.reg a.evs (List.mem_map.mpr ⟨a, List.mem_of_getElem? ha, rfl⟩) e he
  exact hr x hx _ (by rw [← e1]; exact hre)

/-- C44, order: any float format. -/
theorem C44_order (u : Unit') (q m : ℤ) (hm : 1 ≤ m) (fs : FrameSet) (h : List HEv) (hF : Feeds u q m fs h)
    (r : String) (hr : ∀ x ∈ h, ∀ ind, x.reg.get? r = some ind → ind.kind = .heikin) (f : Frame) (hf : f ∈ fs.heap) (v : IndVal) (hv : f.get r = some v) :
    ∃ o hi lo, haOpen fs.heap v = .ok o ∧ haHigh fs.heap v = .ok hi ∧ haLow fs.heap v = .ok lo ∧
      lo ≤ o ∧ o ≤ hi ∧ lo ≤ haLast v ∧ haLast v ≤ hi ∧ lo ≤ v.low.value ∧ v.high.value ≤ hi := by
  have hH := allHeikin_of_registered hm hF hr
  obtain ⟨A, hB, -⟩ := feeds_built hm hF
  obtain ⟨i, hi⟩ := List.mem_iff_getElem?.mp hf
  obtain ⟨o, ho, hro⟩ := haOpen_float hm hB hH hi hv
  have hl : rnd (haLast v) = haLast v := rnd_rnd (fl_idem _)
  refine ⟨o, rnd (max (max o v.high.value) (haLast v)), rnd (min (min o v.low.value) (haLast v)), ho, ?_, ?_,
    ?_, ?_, ?_, ?_, ?_, ?_⟩
  · unfold haHigh; rw [ho]; rfl
  · unfold haLow; rw [ho]; rfl
  · conv_rhs => rw [← hro]
    exact rnd_mono ((min_le_left _ _).trans (min_le_left _ _))
  · conv_lhs => rw [← hro]
    exact rnd_mono ((le_max_left _ _).trans (le_max_left _ _))
  · conv_rhs => rw [← hl]
    exact rnd_mono (min_le_right _ _)
  · conv_lhs => rw [← hl]
    exact rnd_mono (le_max_right _ _)
  · conv_rhs => rw [← rnd_value]
    exact rnd_mono ((min_le_left _ _).trans (min_le_right _ _))
  · conv_lhs => rw [← rnd_value]
    exact rnd_mono ((le_max_right _ _).trans (le_max_left _ _))

/-- C44, chain: the open of the oldest candle in memory is its first tick value, that of any other one the
rounded mean of the open and the last of the candle before it (the nearest earlier frame with a candle). -/
theorem C44_chain (u : Unit') (q m : ℤ) (hm : 1 ≤ m) (fs : FrameSet) (h : List HEv) (hF : Feeds u q m fs h)
    (r : String) (hr : ∀ x ∈ h, ∀ ind, x.reg.get? r = some ind → ind.kind = .heikin) (j : ℕ) (f : Frame)
    (hf : fs.view[j]? = some f) (v : IndVal)
    (hv : f.get r = some v) :
    ((∀ (k : ℕ) (g : Frame), k < j → fs.view[k]? = some g → g.get r = none) →
      haOpen fs.heap v = .ok v.first.value) ∧
    (∀ (k : ℕ) (g : Frame) (p : IndVal), k < j → fs.view[k]? = some g → g.get r = some p →
      (∀ (k' : ℕ) (g' : Frame), k < k' → k' < j → fs.view[k']? = some g' → g'.get r = none) →
      ∃ o, haOpen fs.heap p = .ok o ∧ haOpen fs.heap v = .ok (rnd (fdiv (fadd o (haLast p)) 2))) := by
  have hH := allHeikin_of_registered hm hF hr
  obtain ⟨A, hB, -⟩ := feeds_built hm hF
  obtain ⟨n1, n2, -⟩ := C41_navigation u q m hm fs h hF j f hf r v hv
  have hf' := hf
  rw [(hB.rep hm).view_get] at hf'
  constructor
  · intro hn
    rcases hB.haOpen hm hH hf' hv with ⟨-, h2⟩ | ⟨p, o, h1, -⟩
    · rw [h2, rnd_value]
    · rw [n2.mpr hn] at h1; cases h1
  · intro k g p hk hg hp hk'
    have hpv := (n1 p).mpr ⟨k, g, hk, hg, hp, hk'⟩
    rcases hB.haOpen hm hH hf' hv with ⟨h1, -⟩ | ⟨p', o, h1, h2, h3⟩
    · rw [hpv] at h1; cases h1
    · rw [hpv] at h1
      cases h1
      exact ⟨o, h2, h3⟩

/-- C44, last: it lies between the lowest and the highest tick value in any float format in which `x + x + x + x`
is exact, as it is in binary64 (`C44_last_binary64`) and in exact arithmetic. -/
theorem C44_last (hQ : Quad) (u : Unit') (q m : ℤ) (hm : 1 ≤ m) (fs : FrameSet) (h : List HEv)
    (hF : Feeds u q m fs h) (f : Frame) (hf : f ∈ fs.heap) (r : String) (v : IndVal) (hv : f.get r = some v) :
    v.low.value ≤ haLast v ∧ haLast v ≤ v.high.value := by
  obtain ⟨ts, hs⟩ := feeds_summary hm hF hf hv
  have a1 := hs.low_le _ hs.first_mem
  have a2 := hs.low_le _ hs.high_mem
  have a3 := hs.low_le _ hs.last_mem
  have b1 := hs.le_high _ hs.first_mem
  have b2 := hs.le_high _ hs.low_mem
  have b3 := hs.le_high _ hs.last_mem
  unfold haLast
  constructor
  · conv_lhs => rw [← rnd_value]
    exact rnd_mono (le_mean4 hQ (Tick.value_float _) a1 a2 le_rfl a3)
  · conv_rhs => rw [← rnd_value]
    exact rnd_mono (mean4_le hQ (Tick.value_float _) b1 le_rfl b2 b3)

/-- C44, last, with exact arithmetic: the rounded mean of first, high, low and last tick values. -/
theorem C44_last_exact (hE : Exact) (v : IndVal) :
    haLast v = cent ((v.first.value + v.high.value + v.low.value + v.last.value) / 4) := by
  unfold haLast
  rw [rnd_exact hE, fdiv_exact hE, fadd_exact hE, fadd_exact hE, fadd_exact hE]

/-! ## C50 -/

/-- Spec: the value `p` of the nearest earlier frame in memory. -/
def Spec.Predecessor (fs : FrameSet) (r : String) (j : ℕ) (p : IndVal) : Prop :=
  ∃ (k : ℕ) (g : Frame), k < j ∧ fs.view[k]? = some g ∧ g.get r = some p ∧
    ∀ (k' : ℕ) (g' : Frame), k < k' → k' < j → fs.view[k']? = some g' → g'.get r = none

/-- Spec: no earlier frame in memory has a value. -/
def Spec.NoPredecessor (fs : FrameSet) (r : String) (j : ℕ) : Prop :=
  ∀ (k : ℕ) (g : Frame), k < j → fs.view[k]? = some g → g.get r = none

/-- C50: without a predecessor everything is `None`, for both kinds of pivots. -/
theorem C50_first_frame (u : Unit') (q m : ℤ) (hm : 1 ≤ m) (fs : FrameSet) (h : List HEv) (hF : Feeds u q m fs h)
    (j : ℕ) (f : Frame) (hf : fs.view[j]? = some f) (r : String) (v : IndVal) (hv : f.get r = some v)
    (hp : Spec.NoPredecessor fs r j) :
    pivotClassic fs.heap v = none ∧ pivotOLHC fs.heap v = none ∧ support1 fs.heap v = none ∧
    support2 fs.heap v = none ∧ support3 fs.heap v = none ∧ resistance1 fs.heap v = none ∧
    resistance2 fs.heap v = none ∧ resistance3 fs.heap v = none := by
  have hn := (C41_navigation u q m hm fs h hF j f hf r v hv).2.1.mpr hp
  have h1 : pivotClassic fs.heap v = none := by unfold pivotClassic; rw [hn]; rfl
  have h2 : pivotOLHC fs.heap v = none := by unfold pivotOLHC; rw [hn]; rfl
  have h3 : ∀ g, pivotLevel fs.heap v g = none := by
    intro g
    unfold pivotLevel pivotOf
    rw [h1, h2]
    split <;> simp_all
  exact ⟨h1, h2, h3 _, h3 _, h3 _, h3 _, h3 _, h3 _⟩

/-- C50: the pivot is the rounded `(high + low + last) / 3` of the predecessor, any float format. -/
theorem C50_pivot (u : Unit') (q m : ℤ) (hm : 1 ≤ m) (fs : FrameSet) (h : List HEv) (hF : Feeds u q m fs h)
    (j : ℕ) (f : Frame) (hf : fs.view[j]? = some f) (r : String) (v p : IndVal) (hv : f.get r = some v)
    (hp : Spec.Predecessor fs r j p) :
    pivotClassic fs.heap v = some (rnd (fdiv (fadd (fadd p.high.value p.low.value) p.last.value) 3)) := by
  unfold pivotClassic
  rw [((C41_navigation u q m hm fs h hF j f hf r v hv).1 p).mpr hp]; rfl

/-- C50 (full) for one value with predecessor. -/
def Spec.Levels (fs : FrameSet) (v : IndVal) : Prop :=
  ∃ s3 s2 s1 p r1 r2 r3, support3 fs.heap v = some s3 ∧ support2 fs.heap v = some s2 ∧
    support1 fs.heap v = some s1 ∧ pivotClassic fs.heap v = some p ∧ resistance1 fs.heap v = some r1 ∧
    resistance2 fs.heap v = some r2 ∧ resistance3 fs.heap v = some r3 ∧
    s3 ≤ s2 ∧ s2 ≤ s1 ∧ s1 ≤ p ∧ p ≤ r1 ∧ r1 ≤ r2 ∧ r2 ≤ r3

/-- C50 (full). -/
def Spec.C50 : Prop :=
  ∀ (u : Unit') (q m : ℤ), 1 ≤ m → ∀ (fs : FrameSet) (h : List HEv), Feeds u q m fs h →
  ∀ (j : ℕ) (f : Frame), fs.view[j]? = some f → ∀ (r : String) (v p : IndVal), f.get r = some v →
    v.ind.kind = .pivotClassic → Spec.Predecessor fs r j p → Spec.Levels fs v

/-- The levels for a predecessor with high `H`, low `L`, exact arithmetic and pivot `P` between them. -/
theorem levels_exact (hE : Exact) {fs : FrameSet} {v p : IndVal} (hk : v.ind.kind = .pivotClassic)
    (hp : v.previous fs.heap = some p) {P : ℚ} (hP : pivotClassic fs.heap v = some P) (h0 : P ≠ 0)
    (hc : IsCent P) :
    support3 fs.heap v = some (p.low.value - 2 * (p.high.value - P)) ∧
    support2 fs.heap v = some (P - (p.high.value - p.low.value)) ∧
    support1 fs.heap v = some (2 * P - p.high.value) ∧
    resistance1 fs.heap v = some (2 * P - p.low.value) ∧
    resistance2 fs.heap v = some (P + (p.high.value - p.low.value)) ∧
    resistance3 fs.heap v = some (p.high.value + 2 * (P - p.low.value)) := by
  have hH := isCent_value hE p.high
  have hL := isCent_value hE p.low
  have key : ∀ g, pivotLevel fs.heap v g = some (g P p) := by
    intro g
    unfold pivotLevel pivotOf
    rw [hk]
    simp only [hP, if_neg h0, hp, Option.map_some]
  have two : ∀ {x : ℚ}, IsCent x → IsCent (2 * x) := by
    intro x hx
    have := hx.mul_int 2
    push_cast at this
    rwa [mul_comm]
  unfold support1 support2 support3 resistance1 resistance2 resistance3
  simp only [key, fsub_exact hE, fadd_exact hE, fmul_exact hE, rnd_exact hE]
  refine ⟨?_, ?_, ?_, ?_, ?_, ?_⟩
  · rw [mul_comm, (hL.sub (two (hH.sub hc))).cent]
  · rw [(hc.sub (hH.sub hL)).cent]
  · rw [mul_comm, ((two hc).sub hH).cent]
  · rw [mul_comm, ((two hc).sub hL).cent]
  · rw [(hc.add (hH.sub hL)).cent]
  · rw [mul_comm, (hH.add (two (hc.sub hL))).cent]

/-- C50, levels: exact arithmetic, pivot not 0.  Missing: a pivot of 0, for which the levels are `None`
(`C50_false`), and float rounding (false: `C50_not_in_binary64`). -/
theorem C50_levels_partial (hE : Exact) (u : Unit') (q m : ℤ) (hm : 1 ≤ m) (fs : FrameSet) (h : List HEv)
    (hF : Feeds u q m fs h) (j : ℕ) (f : Frame) (hf : fs.view[j]? = some f) (r : String) (v p : IndVal)
    (hv : f.get r = some v) (hk : v.ind.kind = .pivotClassic) (hp : Spec.Predecessor fs r j p)
    (h0 : pivotClassic fs.heap v ≠ some 0) : Spec.Levels fs v := by
  have hpv := ((C41_navigation u q m hm fs h hF j f hf r v hv).1 p).mpr hp
  have hpiv := C50_pivot u q m hm fs h hF j f hf r v p hv hp
  rw [rnd_exact hE, fdiv_exact hE, fadd_exact hE, fadd_exact hE] at hpiv
  obtain ⟨k, g, -, hg, hgp, -⟩ := hp
  obtain ⟨A, hB, -⟩ := feeds_built hm hF
  rw [(hB.rep hm).view_get] at hg
  obtain ⟨ts, hs⟩ := feeds_summary hm hF (List.mem_of_getElem? hg) hgp
  set P := cent ((p.high.value + p.low.value + p.last.value) / 3) with hPdef
  have hP0 : P ≠ 0 := fun h => h0 (by rw [hpiv, h])
  have a2 := hs.low_le _ hs.high_mem
  have a3 := hs.low_le _ hs.last_mem
  have b3 := hs.le_high _ hs.last_mem
  have hLP : p.low.value ≤ P := by
    conv_lhs => rw [← (isCent_value hE p.low).cent]
    exact cent_mono (by linarith)
  have hPH : P ≤ p.high.value := by
    conv_rhs => rw [← (isCent_value hE p.high).cent]
    exact cent_mono (by linarith)
  obtain ⟨e1, e2, e3, e4, e5, e6⟩ := levels_exact hE hk hpv hpiv hP0 (isCent_cent _)
  refine ⟨_, _, _, _, _, _, _, e1, e2, e3, hpiv, e4, e5, e6, ?_, ?_, ?_, ?_, ?_, ?_⟩ <;> linarith

/-- Presence of the levels is exactly a non-zero pivot, any float format, both kinds of pivots. -/
theorem C50_present_iff_partial (u : Unit') (q m : ℤ) (hm : 1 ≤ m) (fs : FrameSet) (h : List HEv)
    (hF : Feeds u q m fs h) (j : ℕ) (f : Frame) (hf : fs.view[j]? = some f) (r : String) (v p : IndVal)
    (hv : f.get r = some v) (hp : Spec.Predecessor fs r j p) :
    (support1 fs.heap v).isSome = decide (pivotOf fs.heap v ≠ some 0) ∧
    (support2 fs.heap v).isSome = decide (pivotOf fs.heap v ≠ some 0) ∧
    (support3 fs.heap v).isSome = decide (pivotOf fs.heap v ≠ some 0) ∧
    (resistance1 fs.heap v).isSome = decide (pivotOf fs.heap v ≠ some 0) ∧
    (resistance2 fs.heap v).isSome = decide (pivotOf fs.heap v ≠ some 0) ∧
    (resistance3 fs.heap v).isSome = decide (pivotOf fs.heap v ≠ some 0) := by
  have hpv := ((C41_navigation u q m hm fs h hF j f hf r v hv).1 p).mpr hp
  have hsome : ∃ x, pivotOf fs.heap v = some x := by
    unfold pivotOf
    split
    · unfold pivotOLHC; rw [hpv]; exact ⟨_, rfl⟩
    · unfold pivotClassic; rw [hpv]; exact ⟨_, rfl⟩
  obtain ⟨x, hx⟩ := hsome
  have key : ∀ g, (pivotLevel fs.heap v g).isSome = decide (pivotOf fs.heap v ≠ some 0) := by
    intro g
    unfold pivotLevel
    rw [hx]
    simp only [hpv]
    by_cases h0 : x = 0
    · simp [h0]
    · simp [h0]
  exact ⟨key _, key _, key _, key _, key _, key _⟩

/-! ## C51 -/

/-- C51: the OLHC pivot is the rounded mean of the predecessor's high, low, last and the current first tick
value, any float format. -/
theorem C51_pivot (u : Unit') (q m : ℤ) (hm : 1 ≤ m) (fs : FrameSet) (h : List HEv) (hF : Feeds u q m fs h)
    (j : ℕ) (f : Frame) (hf : fs.view[j]? = some f) (r : String) (v p : IndVal) (hv : f.get r = some v)
    (hk : v.ind.kind = .pivotOLHC) (hp : Spec.Predecessor fs r j p) :
    pivotOf fs.heap v = some (rnd (fdiv
      (fadd (fadd (fadd p.high.value p.low.value) p.last.value) v.first.value) 4)) := by
  unfold pivotOf pivotOLHC
  rw [((C41_navigation u q m hm fs h hF j f hf r v hv).1 p).mpr hp, hk]; rfl

/-- C51, bounds: the pivot lies between the smallest and largest of the four values in any float format in which
`x + x + x + x` is exact, as it is in binary64 (`C51_bounds_binary64`) and in exact arithmetic. -/
theorem C51_bounds (hQ : Quad) (u : Unit') (q m : ℤ) (hm : 1 ≤ m) (fs : FrameSet) (h : List HEv)
    (hF : Feeds u q m fs h) (j : ℕ) (f : Frame) (hf : fs.view[j]? = some f) (r : String) (v p : IndVal)
    (hv : f.get r = some v) (hk : v.ind.kind = .pivotOLHC) (hp : Spec.Predecessor fs r j p) :
    ∃ P, pivotOf fs.heap v = some P ∧
      min p.low.value v.first.value ≤ P ∧ P ≤ max p.high.value v.first.value := by
  have hpiv := C51_pivot u q m hm fs h hF j f hf r v p hv hk hp
  obtain ⟨k, g, -, hg, hgp, -⟩ := hp
  obtain ⟨A, hB, -⟩ := feeds_built hm hF
  rw [(hB.rep hm).view_get] at hg
  obtain ⟨ts, hs⟩ := feeds_summary hm hF (List.mem_of_getElem? hg) hgp
  have a2 := hs.low_le _ hs.high_mem
  have a3 := hs.low_le _ hs.last_mem
  have b2 := hs.le_high _ hs.low_mem
  have b3 := hs.le_high _ hs.last_mem
  have m1 := min_le_left p.low.value v.first.value
  have M1 := le_max_left p.high.value v.first.value
  refine ⟨_, hpiv, ?_, ?_⟩
  · rcases min_choice p.low.value v.first.value with e | e
    · rw [e] at m1 ⊢
      have := min_le_right p.low.value v.first.value
      rw [e] at this
      conv_lhs => rw [← rnd_value]
      exact rnd_mono (le_mean4 hQ (Tick.value_float _) a2 le_rfl a3 this)
    · rw [e] at m1 ⊢
      conv_lhs => rw [← rnd_value]
      exact rnd_mono (le_mean4 hQ (Tick.value_float _) (m1.trans a2) m1 (m1.trans a3) le_rfl)
  · rcases max_choice p.high.value v.first.value with e | e
    · rw [e] at M1 ⊢
      have := le_max_right p.high.value v.first.value
      rw [e] at this
      conv_rhs => rw [← rnd_value]
      exact rnd_mono (mean4_le hQ (Tick.value_float _) le_rfl b2 b3 this)
    · rw [e] at M1 ⊢
      conv_rhs => rw [← rnd_value]
      exact rnd_mono (mean4_le hQ (Tick.value_float _) M1 (b2.trans M1) (b3.trans M1) le_rfl)

end

/-- C44, last, in binary64. -/
theorem C44_last_binary64 : letI := Arith.binary64
    ∀ (u : Unit') (q m : ℤ), 1 ≤ m → ∀ (fs : FrameSet) (h : List HEv), Feeds u q m fs h → ∀ f ∈ fs.heap,
    ∀ (r : String) (v : IndVal), f.get r = some v → v.low.value ≤ haLast v ∧ haLast v ≤ v.high.value := by
  letI := Arith.binary64
  exact C44_last quad_binary64

/-- C51, bounds, in binary64. -/
theorem C51_bounds_binary64 : letI := Arith.binary64
    ∀ (u : Unit') (q m : ℤ), 1 ≤ m → ∀ (fs : FrameSet) (h : List HEv), Feeds u q m fs h →
    ∀ (j : ℕ) (f : Frame), fs.view[j]? = some f → ∀ (r : String) (v p : IndVal), f.get r = some v →
    v.ind.kind = .pivotOLHC → Spec.Predecessor fs r j p →
    ∃ P, pivotOf fs.heap v = some P ∧
      min p.low.value v.first.value ≤ P ∧ P ≤ max p.high.value v.first.value := by
  letI := Arith.binary64
  exact C51_bounds quad_binary64

/-! ## Negations and concrete cases -/

section examples

open Demo (with1 at' value obs value_some feeds1)

private def jap (moo : Bool) : Indicator := ⟨"c", .japanese, moo⟩

private def hei : Indicator := ⟨"h", .heikin, false⟩

private def piv : Indicator := ⟨"p", .pivotClassic, false⟩

private def olhc : Indicator := ⟨"p", .pivotOLHC, false⟩

/-- One tick per minute. -/
private def rising : List (Ctx × Tick) := [at' 0 true 10, at' 60 true 20, at' 120 true 40]

/-- A minute with three ticks (the last one with a closed market), a minute without and one with one tick. -/
private def gap : List (Ctx × Tick) := [at' 0 true 10, at' 20 true 12, at' 40 false 8, at' 120 true 40]

/-- C40: the hypotheses (timed frames, in order) and the values for a `market_open_only` candle set. -/
example : letI := Arith.exact
    ∃ fs h, Feeds .minute 1 5 fs h ∧ Spec.InOrder h ∧ Spec.NoneSkipped .minute 1 h ∧
      (∀ x ∈ h, x.reg.get? "c" = some (jap true)) ∧ fs.view.length = 3 ∧
      (value fs 0 "c").map (fun v => (v.first.value, v.high.value, v.low.value, v.last.value)) =
        some (10, 12, 10, 12) ∧
      (value fs 1 "c").map (fun v => (v.first.value, v.last.value)) = some (8, 8) := by
  letI := Arith.exact
  obtain ⟨fs, hs, h1, h2, h3, -, h5⟩ := feeds1 (u := .minute) (q := 1) (m := 5) (by decide)
    (ind := jap true) (l := gap) (by decide +kernel)
  have hw : hs.map (fun e => e.tick.dt.wall) = gap.map (fun p => p.2.dt.wall) := by
    rw [← h2, List.map_map]; rfl
  refine ⟨fs, hs, h1, ?_, ?_, fun e he => by rw [h3 e he]; decide,
    obs h5 (g := fun fs => fs.view.length) (by decide +kernel),
    obs h5 (g := fun fs => (value fs 0 "c").map (fun v => (v.first.value, v.high.value, v.low.value, v.last.value)))
      (by decide +kernel),
    obs h5 (g := fun fs => (value fs 1 "c").map (fun v => (v.first.value, v.last.value))) (by decide +kernel)⟩
  · have : (hs.map (fun e => e.tick.dt.wall)).Pairwise (· ≤ ·) := by rw [hw]; decide +kernel
    exact List.pairwise_map.mp this
  · intro e he
    have hm : (e.ctx, e.tick) ∈ gap := by rw [← h2]; exact List.mem_map.mpr ⟨e, he, rfl⟩
    have hz : ∀ p ∈ gap, p.1.zone = Zone.utc := by
      intro p hp
      simp only [gap, List.mem_cons, List.not_mem_nil, or_false] at hp
      rcases hp with rfl | rfl | rfl | rfl <;> rfl
    intro _ _ n _ _ _
    have : e.ctx.zone = Zone.utc := hz _ hm
    rw [this]
    rfl

/-- C41: the hypotheses, with a frame without value in the middle, which `previous` skips and `next` does not. -/
example : letI := Arith.exact
    ∃ fs h, Feeds .minute 1 5 fs h ∧ fs.view.length = 3 ∧ value fs 1 "c" = none ∧
      (value fs 2 "c").map (fun v => (v.previous fs.heap).map (fun p => p.last.value)) = some (some 10) ∧
      (value fs 0 "c").map (fun v => (v.next fs.heap).isSome) = some false := by
  letI := Arith.exact
  obtain ⟨fs, hs, h1, h2, h3, -, h5⟩ := feeds1 (u := .minute) (q := 1) (m := 5) (by decide)
    (ind := jap true) (l := [at' 0 true 10, at' 60 false 20, at' 120 true 40]) (by decide +kernel)
  refine ⟨fs, hs, h1, obs h5 (g := fun fs => fs.view.length) (by decide +kernel), ?_,
    obs h5 (g := fun fs => (value fs 2 "c").map (fun v => (v.previous fs.heap).map (fun p => p.last.value)))
      (by decide +kernel),
    obs h5 (g := fun fs => (value fs 0 "c").map (fun v => (v.next fs.heap).isSome)) (by decide +kernel)⟩
  have := obs h5 (g := fun fs => (value fs 1 "c").isSome) (x := false) (by decide +kernel)
  exact Option.not_isSome_iff_eq_none.mp (by rw [this]; decide)

/-- C42 is false of the code: a candle that opens at 0 has neither colour nor body. -/
theorem C42_false : letI := Arith.exact; ¬ Spec.C42 := by
  letI := Arith.exact
  intro h
  obtain ⟨fs, hs, h1, h2, h3, -, h5⟩ := feeds1 (u := .minute) (q := 1) (m := 5) (by decide)
    (ind := jap false) (l := [at' 0 true 0, at' 10 true 5]) (by decide +kernel)
  obtain ⟨f, v, hf, hv, hx⟩ := value_some (g := fun v => (jOhlc v).body)
    (obs h5 (g := fun fs => (value fs 0 "c").map (fun v => (jOhlc v).body)) (x := some none) (by decide +kernel))
  obtain ⟨b, hd, tl, hb, -⟩ := h .minute 1 5 (by decide) fs hs h1 f (List.mem_of_getElem? hf) "c" v hv
  rw [hx] at hb; cases hb

/-- C42: the hypotheses, a red candle. -/
example : letI := Arith.exact
    ∃ fs h, Feeds .minute 1 5 fs h ∧
      (value fs 0 "c").map (fun v => (jOhlc v).color) = some (some .red) ∧
      (value fs 0 "c").map (fun v => (jOhlc v).body) = some (some 2) ∧
      (value fs 0 "c").map (fun v => (jOhlc v).head) = some (some 2) ∧
      (value fs 0 "c").map (fun v => (jOhlc v).tail) = some (some 0) ∧
      (value fs 0 "c").map (fun v => (jOhlc v).height) = some 4 := by
  letI := Arith.exact
  obtain ⟨fs, hs, h1, h2, h3, -, h5⟩ := feeds1 (u := .minute) (q := 1) (m := 5) (by decide)
    (ind := jap false) (l := gap) (by decide +kernel)
  exact ⟨fs, hs, h1, obs h5 (g := fun fs => (value fs 0 "c").map (fun v => (jOhlc v).color)) (by decide +kernel),
    obs h5 (g := fun fs => (value fs 0 "c").map (fun v => (jOhlc v).body)) (by decide +kernel),
    obs h5 (g := fun fs => (value fs 0 "c").map (fun v => (jOhlc v).head)) (by decide +kernel),
    obs h5 (g := fun fs => (value fs 0 "c").map (fun v => (jOhlc v).tail)) (by decide +kernel),
    obs h5 (g := fun fs => (value fs 0 "c").map (fun v => (jOhlc v).height)) (by decide +kernel)⟩

/-- C42, sum: not with binary64 floats.  A candle with open 0.1, high and last 0.3 has the height
0.19999999999999998, but the body 0.2 and no head nor tail. -/
theorem C42_not_in_binary64 : letI := Arith.binary64
    ∃ fs h f v, Feeds .minute 1 5 fs h ∧ f ∈ fs.heap ∧ f.get "c" = some v ∧ jOpen v ≠ 0 ∧ jLast v ≠ 0 ∧
      ¬ Spec.Geometry (jOhlc v) := by
  letI := Arith.binary64
  obtain ⟨fs, hs, h1, h2, h3, -, h5⟩ := feeds1 (u := .minute) (q := 1) (m := 5) (by decide)
    (ind := jap false) (l := [at' 0 true (fl (1 / 10)), at' 10 true (fl (3 / 10))]) (by decide +kernel)
  obtain ⟨f, v, hf, hv, hx⟩ := value_some (g := fun v => ([decide (jOpen v ≠ 0), decide (jLast v ≠ 0),
      decide ((jOhlc v).height = fl (2 / 10))], [(jOhlc v).body, (jOhlc v).head, (jOhlc v).tail]))
    (obs h5 (g := fun fs => (value fs 0 "c").map (fun v => ([decide (jOpen v ≠ 0), decide (jLast v ≠ 0),
      decide ((jOhlc v).height = fl (2 / 10))], [(jOhlc v).body, (jOhlc v).head, (jOhlc v).tail])))
      (x := some ([true, true, false], [some (fl (2 / 10)), some 0, some 0])) (by decide +kernel))
  simp only [Prod.mk.injEq, List.cons.injEq, and_true, decide_eq_true_eq, decide_eq_false_iff_not] at hx
  obtain ⟨⟨x1, x2, x6⟩, x3, x4, x5⟩ := hx
  refine ⟨fs, hs, f, v, h1, List.mem_of_getElem? hf, hv, x1, x2, ?_⟩
  rintro ⟨b, hd, tl, e1, e2, e3, -, -, -, e4, -⟩
  rw [x3] at e1
  rw [x4] at e2
  rw [x5] at e3
  cases e1; cases e2; cases e3
  rw [add_zero, add_zero] at e4
  exact x6 e4.symm

/-- A closed frame's value read after some ticks more. -/
private theorem later {u : Unit'} {q m : ℤ} [Arith] (hm : 1 ≤ m) {ind : Indicator} {l l' : List (Ctx × Tick)}
    {fs gs : FrameSet} {hs : List HEv} (h1 : Feeds u q m fs hs) (h5 : feedAll (with1 u q m ind) l = .ok fs)
    (h6 : feedAll (with1 u q m ind) (l ++ l') = .ok gs) :
    feedAll fs l' = .ok gs ∧ ∀ (i : ℕ) (f : Frame), fs.heap[i]? = some f → i + 1 < fs.heap.length →
      ∀ r v, f.get r = some v → value gs i r = some v := by
  have hl : feedAll fs l' = .ok gs := by
    rw [feedAll_append, h5] at h6; exact h6
  refine ⟨hl, ?_⟩
  intro i f hf hi r v hv
  obtain ⟨f', hf', hg, -⟩ := C43_values_partial u q m hm fs gs hs h1 l' hl i f hf hi
  unfold value
  rw [hf', Option.bind_some, hg, hv]

/-- C43 is false of the code, close: once its frame was dropped from memory, the `close` of the candle is `None`
again. -/
theorem C43_close_false : letI := Arith.exact; ¬ Spec.C43 := by
  letI := Arith.exact
  intro h
  obtain ⟨fs, hs, h1, -, -, -, h5⟩ := feeds1 (u := .minute) (q := 1) (m := 2) (by decide)
    (ind := jap false) (l := [at' 0 true 10, at' 60 true 20]) (by decide +kernel)
  obtain ⟨gs, -, -, -, -, -, h6⟩ := feeds1 (u := .minute) (q := 1) (m := 2) (by decide)
    (ind := jap false) (l := [at' 0 true 10, at' 60 true 20] ++ [at' 120 true 40]) (by decide +kernel)
  obtain ⟨f, v, hf, hv, hx⟩ := value_some (g := fun v => (jClose fs.heap v, v.ind.kind))
    (obs h5 (g := fun fs => (value fs 0 "c").map (fun v => (jClose fs.heap v, v.ind.kind)))
      (x := some (some 10, .japanese)) (by decide +kernel))
  simp only [Prod.mk.injEq] at hx
  have hview := obs h5 (g := fun fs => (fs.view.length, fs.heap.length)) (x := (2, 2)) (by decide +kernel)
  simp only [Prod.mk.injEq] at hview
  have hv0 : fs.view = fs.heap := view_all (by decide) h1 (by rw [hview.2]; decide)
  obtain ⟨hstep, hlater⟩ := later (by decide) h1 h5 h6
  have hc := (h .minute 1 2 (by decide) fs gs hs h1 _ hstep 0 f "c" v
    (by rw [hv0]; exact hf) (by rw [hview.1]; decide) hv).1 hx.2
  have hx' := obs h6 (g := fun gs => (value gs 0 "c").map (fun v => jClose gs.heap v)) (x := some none)
    (by decide +kernel)
  rw [hlater 0 f hf (by rw [hview.2]; decide) "c" v hv] at hx'
  rw [hx.1, show jClose gs.heap v = none from Option.some.inj hx'] at hc
  cases hc

/-- C43 is false of the code, Heikin-Ashi: dropping the oldest frame from memory makes the next candle the start of
the chain, which changes the open of this closed candle in memory from 10 to 20. -/
theorem C43_heikin_open_false : letI := Arith.exact; ¬ Spec.C43 := by
  letI := Arith.exact
  intro h
  obtain ⟨fs, hs, h1, -, -, -, h5⟩ := feeds1 (u := .minute) (q := 1) (m := 3) (by decide)
    (ind := hei) (l := rising) (by decide +kernel)
  obtain ⟨gs, -, -, -, -, -, h6⟩ := feeds1 (u := .minute) (q := 1) (m := 3) (by decide)
    (ind := hei) (l := rising ++ [at' 180 true 40]) (by decide +kernel)
  obtain ⟨f, v, hf, hv, hx⟩ := value_some (g := fun v => (haOpen fs.heap v, v.ind.kind))
    (obs h5 (g := fun fs => (value fs 1 "h").map (fun v => (haOpen fs.heap v, v.ind.kind)))
      (x := some (.ok 10, .heikin)) (by decide +kernel))
  simp only [Prod.mk.injEq] at hx
  have hview := obs h5 (g := fun fs => (fs.view.length, fs.heap.length)) (x := (3, 3)) (by decide +kernel)
  simp only [Prod.mk.injEq] at hview
  have hv0 : fs.view = fs.heap := view_all (by decide) h1 (by rw [hview.2]; decide)
  obtain ⟨hstep, hlater⟩ := later (by decide) h1 h5 h6
  have hc := (h .minute 1 3 (by decide) fs gs hs h1 _ hstep 1 f "h" v
    (by rw [hv0]; exact hf) (by rw [hview.1]; decide) hv).2 hx.2
  have hx' := obs h6 (g := fun gs => (value gs 1 "h").map (fun v => haOpen gs.heap v)) (x := some (.ok 20))
    (by decide +kernel)
  rw [hlater 1 f hf (by rw [hview.2]; decide) "h" v hv] at hx'
  rw [hx.1, show haOpen gs.heap v = .ok 20 from Option.some.inj hx'] at hc
  exact absurd hc (by decide +kernel)

/-- C43, C44: the hypotheses of the theorems (three frames in memory, then one tick more), chain and order. -/
example : letI := Arith.exact
    ∃ fs gs h, Feeds .minute 1 5 fs h ∧ (∀ x ∈ h, ∀ ind, x.reg.get? "h" = some ind → ind.kind = .heikin) ∧
      feedAll fs [at' 130 true 30] = .ok gs ∧ gs.heap.length = 3 ∧
      (value gs 1 "h").map (fun v => haOpen gs.heap v) = some (.ok 10) ∧
      (value gs 1 "h").map haLast = some 20 ∧
      (value gs 2 "h").map (fun v => haOpen gs.heap v) = some (.ok 15) ∧
      (value gs 2 "h").map (fun v => haLow gs.heap v) = some (.ok 15) ∧
      (value gs 2 "h").map (fun v => haHigh gs.heap v) = some (.ok 40) ∧
      (value gs 2 "h").map haLast = some 35 := by
  letI := Arith.exact
  obtain ⟨fs, hs, h1, -, h3, -, h5⟩ := feeds1 (u := .minute) (q := 1) (m := 5) (by decide)
    (ind := hei) (l := rising) (by decide +kernel)
  obtain ⟨gs, -, -, -, -, -, h6⟩ := feeds1 (u := .minute) (q := 1) (m := 5) (by decide)
    (ind := hei) (l := rising ++ [at' 130 true 30]) (by decide +kernel)
  refine ⟨fs, gs, hs, h1, ?_, (later (by decide) h1 h5 h6).1, obs h6 (g := fun gs => gs.heap.length) (by decide +kernel),
    obs h6 (g := fun gs => (value gs 1 "h").map (fun v => haOpen gs.heap v)) (by decide +kernel),
    obs h6 (g := fun gs => (value gs 1 "h").map haLast) (by decide +kernel),
    obs h6 (g := fun gs => (value gs 2 "h").map (fun v => haOpen gs.heap v)) (by decide +kernel),
    obs h6 (g := fun gs => (value gs 2 "h").map (fun v => haLow gs.heap v)) (by decide +kernel),
    obs h6 (g := fun gs => (value gs 2 "h").map (fun v => haHigh gs.heap v)) (by decide +kernel),
    obs h6 (g := fun gs => (value gs 2 "h").map haLast) (by decide +kernel)⟩
  intro x hx ind hi
  rw [h3 x hx] at hi
  cases hi
  rfl

/-- C50 is false of the code: with a pivot of 0 there are no levels. -/
theorem C50_false : letI := Arith.exact; ¬ Spec.C50 := by
  letI := Arith.exact
  intro h
  obtain ⟨fs, hs, h1, -, -, -, h5⟩ := feeds1 (u := .minute) (q := 1) (m := 5) (by decide)
    (ind := piv) (l := [at' 0 true (-10), at' 10 true 10, at' 20 true 0, at' 60 true 5]) (by decide +kernel)
  obtain ⟨f, v, hf, hv, hx⟩ := value_some
    (g := fun v => (support1 fs.heap v, v.ind.kind, (v.previous fs.heap).map (fun p => p.high.value)))
    (obs h5 (g := fun fs => (value fs 1 "p").map
        (fun v => (support1 fs.heap v, v.ind.kind, (v.previous fs.heap).map (fun p => p.high.value))))
      (x := some (none, .pivotClassic, some 10)) (by decide +kernel))
  simp only [Prod.mk.injEq] at hx
  obtain ⟨hx1, hx2, hx3⟩ := hx
  obtain ⟨p, hp, -⟩ := Option.map_eq_some_iff.mp hx3
  have hview := obs h5 (g := fun fs => fs.heap.length) (x := 2) (by decide +kernel)
  have hv0 : fs.view = fs.heap := view_all (by decide) h1 (by rw [hview]; decide)
  have hf' : fs.view[1]? = some f := by rw [hv0]; exact hf
  obtain ⟨s3, s2, s1, P, r1, r2, r3, -, -, e, -⟩ := h .minute 1 5 (by decide) fs hs h1 1 f hf' "p" v p hv hx2
    (((C41_navigation .minute 1 5 (by decide) fs hs h1 1 f hf' "p" v hv).1 p).mp hp)
  rw [hx1] at e
  cases e

/-- C50 is false of the code with binary64 floats for large prices: with a price of 9007199254740990 throughout,
the pivot is 9007199254740989 and resistance1 9007199254740988. -/
theorem C50_not_in_binary64 : letI := Arith.binary64; ¬ Spec.C50 := by
  letI := Arith.binary64
  intro h
  obtain ⟨fs, hs, h1, -, -, -, h5⟩ := feeds1 (u := .minute) (q := 1) (m := 5) (by decide)
    (ind := piv) (l := [at' 0 true 9007199254740990, at' 60 true 9007199254740990]) (by decide +kernel)
  obtain ⟨f, v, hf, hv, hx⟩ := value_some
    (g := fun v => (pivotClassic fs.heap v, resistance1 fs.heap v, v.ind.kind, (v.previous fs.heap).isSome))
    (obs h5 (g := fun fs => (value fs 1 "p").map
        (fun v => (pivotClassic fs.heap v, resistance1 fs.heap v, v.ind.kind, (v.previous fs.heap).isSome)))
      (x := some (some 9007199254740989, some 9007199254740988, .pivotClassic, true)) (by decide +kernel))
  simp only [Prod.mk.injEq] at hx
  obtain ⟨hx1, hx2, hx3, hx4⟩ := hx
  obtain ⟨p, hp⟩ := Option.isSome_iff_exists.mp hx4
  have hview := obs h5 (g := fun fs => fs.heap.length) (x := 2) (by decide +kernel)
  have hv0 : fs.view = fs.heap := view_all (by decide) h1 (by rw [hview]; decide)
  have hf' : fs.view[1]? = some f := by rw [hv0]; exact hf
  obtain ⟨s3, s2, s1, P, r1, r2, r3, -, -, -, e1, e2, -, -, -, -, -, hle, -⟩ :=
    h .minute 1 5 (by decide) fs hs h1 1 f hf' "p" v p hv hx3
      (((C41_navigation .minute 1 5 (by decide) fs hs h1 1 f hf' "p" v hv).1 p).mp hp)
  rw [hx1] at e1
  rw [hx2] at e2
  cases e1
  cases e2
  norm_num at hle

/-- C50: the hypotheses and the levels after a minute with high 12, low 8 and last 8. -/
example : letI := Arith.exact
    ∃ fs h f v, Feeds .minute 1 5 fs h ∧ fs.view[1]? = some f ∧ f.get "p" = some v ∧ v.ind.kind = .pivotClassic ∧
      (∃ p, Spec.Predecessor fs "p" 1 p) ∧
      pivotClassic fs.heap v = some (933 / 100) ∧ support1 fs.heap v = some (666 / 100) ∧
      resistance1 fs.heap v = some (1066 / 100) ∧ support2 fs.heap v = some (533 / 100) ∧
      resistance2 fs.heap v = some (1333 / 100) ∧ support3 fs.heap v = some (266 / 100) ∧
      resistance3 fs.heap v = some (1466 / 100) := by
  letI := Arith.exact
  obtain ⟨fs, hs, h1, -, -, -, h5⟩ := feeds1 (u := .minute) (q := 1) (m := 5) (by decide)
    (ind := piv) (l := gap) (by decide +kernel)
  obtain ⟨f, v, hf, hv, hx⟩ := value_some
    (g := fun v => ((v.previous fs.heap).isSome, v.ind.kind, [pivotClassic fs.heap v, support1 fs.heap v,
      resistance1 fs.heap v, support2 fs.heap v, resistance2 fs.heap v, support3 fs.heap v, resistance3 fs.heap v]))
    (obs h5 (g := fun fs => (value fs 1 "p").map (fun v => ((v.previous fs.heap).isSome, v.ind.kind,
      [pivotClassic fs.heap v, support1 fs.heap v, resistance1 fs.heap v, support2 fs.heap v, resistance2 fs.heap v,
      support3 fs.heap v, resistance3 fs.heap v])))
      (x := some (true, .pivotClassic, [some (933 / 100), some (666 / 100), some (1066 / 100), some (533 / 100),
        some (1333 / 100), some (266 / 100), some (1466 / 100)])) (by decide +kernel))
  simp only [Prod.mk.injEq, List.cons.injEq, and_true] at hx
  obtain ⟨hx1, hx2, hx3⟩ := hx
  obtain ⟨p, hp⟩ := Option.isSome_iff_exists.mp hx1
  have hview := obs h5 (g := fun fs => fs.heap.length) (x := 3) (by decide +kernel)
  have hv0 : fs.view = fs.heap := view_all (by decide) h1 (by rw [hview]; decide)
  have hf' : fs.view[1]? = some f := by rw [hv0]; exact hf
  exact ⟨fs, hs, f, v, h1, hf', hv, hx2,
    ⟨p, ((C41_navigation .minute 1 5 (by decide) fs hs h1 1 f hf' "p" v hv).1 p).mp hp⟩, hx3⟩

/-- C51: the hypotheses and the pivot. -/
example : letI := Arith.exact
    ∃ fs h f v, Feeds .minute 1 5 fs h ∧ fs.view[2]? = some f ∧ f.get "p" = some v ∧ v.ind.kind = .pivotOLHC ∧
      (∃ p, Spec.Predecessor fs "p" 2 p) ∧ pivotOf fs.heap v = some 16 := by
  letI := Arith.exact
  obtain ⟨fs, hs, h1, -, -, -, h5⟩ := feeds1 (u := .minute) (q := 1) (m := 5) (by decide)
    (ind := olhc) (l := gap) (by decide +kernel)
  obtain ⟨f, v, hf, hv, hx⟩ := value_some
    (g := fun v => ((v.previous fs.heap).isSome, v.ind.kind, pivotOf fs.heap v))
    (obs h5 (g := fun fs => (value fs 2 "p").map (fun v => ((v.previous fs.heap).isSome, v.ind.kind,
      pivotOf fs.heap v))) (x := some (true, .pivotOLHC, some 16)) (by decide +kernel))
  simp only [Prod.mk.injEq] at hx
  obtain ⟨hx1, hx2, hx3⟩ := hx
  obtain ⟨p, hp⟩ := Option.isSome_iff_exists.mp hx1
  have hview := obs h5 (g := fun fs => fs.heap.length) (x := 3) (by decide +kernel)
  have hv0 : fs.view = fs.heap := view_all (by decide) h1 (by rw [hview]; decide)
  have hf' : fs.view[2]? = some f := by rw [hv0]; exact hf
  exact ⟨fs, hs, f, v, h1, hf', hv, hx2,
    ⟨p, ((C41_navigation .minute 1 5 (by decide) fs hs h1 2 f hf' "p" v hv).1 p).mp hp⟩, hx3⟩

end examples

end Estrade
