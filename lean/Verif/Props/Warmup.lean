import Verif.Lemmas.Warmup
import Verif.Props.Indicators

/-!
# C102: how far back the ticks start

A program that starts at a frame boundary gets the frames of one that has been running for longer, and the values of its indicators once
there are as many frames as they look at.
-/

set_option linter.style.haveILetI false
set_option linter.unusedSectionVars false
set_option autoImplicit false

namespace Estrade

/-- Spec: the frame is complete when the tick comes. -/
def Spec.Complete (u : Unit') (q : ℤ) (f : Frame) (t : Tick) : Prop :=
  if u = .tick then q ≤ (f.nbTicks : ℤ) else ∃ e, f.periodEnd = some e ∧ e ≤ t.dt.wall

/-- Spec: the `k`-th frame counted from the latest, which is number 0. -/
def Spec.ago (fs : FrameSet) (k : ℕ) : Option Frame := fs.heap.reverse[k]?

section
variable [Arith]

/-- Spec: `fs` has been given the ticks of `gs` after other ticks, the last frame of which was complete when the first tick of `gs` came.  The
last date of the epic, which differs for the first tick, does not matter. -/
structure Spec.Earlier (u : Unit') (q m m' : ℤ) (fs gs : FrameSet) (h h' : List HEv) : Prop where
  long : Feeds u q m fs h
  short : Feeds u q m' gs h'
  split : ∃ (pre : List HEv) (fs0 : FrameSet) (x x' : HEv) (l l' : List HEv), h = pre ++ x :: l ∧ h' = x' :: l' ∧
    x.tick = x'.tick ∧ x.ctx.zone = x'.ctx.zone ∧
    l.map (fun e => (e.ctx, e.tick)) = l'.map (fun e => (e.ctx, e.tick)) ∧ Feeds u q m fs0 pre ∧
    ∀ f, fs0.view.getLast? = some f → Spec.Complete u q f x.tick

theorem view_getLast {u : Unit'} {q m : ℤ} (hm : 1 ≤ m) {fs : FrameSet} {h : List HEv} (hF : Feeds u q m fs h) :
    fs.view.getLast? = fs.heap.getLast? := by
  obtain ⟨A, hB, -⟩ := feeds_built hm hF
  have hR := hB.rep hm
  have hf := hB.fields.2.2
  rw [hR.view, List.getLast?_drop]
  split_ifs with h0
  · have : fs.heap = [] := by
      rw [← List.length_eq_zero_iff]
      have := hR.len
      omega
    rw [this]; rfl
  · rfl

theorem Spec.Earlier.behind {u : Unit'} {q m m' : ℤ} (hm : 1 ≤ m) (hm' : 1 ≤ m') {fs gs : FrameSet} {h h' : List HEv}
    (H : Spec.Earlier u q m m' fs gs h h') : ∃ P, Behind P fs gs := by
  obtain ⟨pre, fs0, x, x', l, l', e1, e2, e3, e4, e5, hF0, hov⟩ := H.split
  have hF := H.long
  have hG := H.short
  subst e1 e2
  refine feeds_behind hm hm' hF0 e3 e4 ?_ l l' e5 fs gs hF hG
  rw [← view_getLast hm hF0]
  exact hov

theorem ago_eq {fs : FrameSet} {k : ℕ} (h : k < fs.heap.length) : Spec.ago fs k = fs.heap[fs.heap.length - 1 - k]? := by
  unfold Spec.ago; rw [List.getElem?_reverse h]

theorem ago_lt {fs : FrameSet} {k : ℕ} {f : Frame} (h : Spec.ago fs k = some f) : k < fs.heap.length := by
  have := (List.getElem?_eq_some_iff.mp h).1
  rwa [List.length_reverse] at this

theorem Behind.ago {P : List Frame} {fs gs : FrameSet} (hP : Behind P fs gs) {k : ℕ} {g : Frame} (hg : Spec.ago gs k = some g) :
    ∃ (i : ℕ) (f : Frame), gs.heap.length = i + k + 1 ∧ gs.heap[i]? = some g ∧ Spec.ago fs k = some f ∧
      fs.heap[P.length + i]? = some f ∧ f.naked = g.naked := by
  have hk := ago_lt hg
  have hl := hP.len
  rw [ago_eq hk] at hg
  obtain ⟨f, hf, hn⟩ := hP.get hg
  refine ⟨gs.heap.length - 1 - k, f, by omega, hg, ?_, hf, hn⟩
  rw [ago_eq (by omega), ← hf]
  congr 1
  omega

/-- C102: counted from the latest, the frames are the same, whatever the memory limits and the indicators. -/
theorem C102_frames (u : Unit') (q m m' : ℤ) (hm : 1 ≤ m) (hm' : 1 ≤ m') (fs gs : FrameSet) (h h' : List HEv)
    (H : Spec.Earlier u q m m' fs gs h h') (k : ℕ) (g : Frame) (hg : Spec.ago gs k = some g) :
    ∃ f, Spec.ago fs k = some f ∧ Spec.face f = Spec.face g := by
  obtain ⟨P, hP⟩ := H.behind hm hm'
  obtain ⟨i, f, -, -, h3, -, hn⟩ := hP.ago hg
  refine ⟨f, h3, ?_⟩
  cases f; cases g
  simp only [Frame.naked, Frame.mk.injEq] at hn
  obtain ⟨rfl, rfl, -, -, rfl, rfl, rfl, rfl, rfl, -⟩ := hn
  rfl

/-- C102: an average over `p` frames needs `p` frames. -/
theorem C102_sma (u : Unit') (q m m' : ℤ) (hm : 1 ≤ m) (hm' : 1 ≤ m') (fs gs : FrameSet) (h h' : List HEv)
    (H : Spec.Earlier u q m m' fs gs h h') (r : String) (mp mp' : ℤ) (p : ℕ) (hp : 1 ≤ p) (hpm : (p : ℤ) ≤ mp) (hpm' : (p : ℤ) ≤ mp')
    (hr : Spec.Registered h r ⟨r, .sma mp, false⟩) (hr' : Spec.Registered h' r ⟨r, .sma mp', false⟩) (k : ℕ)
    (hk : k + p ≤ gs.heap.length) :
    ∃ f g v v' x, Spec.ago fs k = some f ∧ Spec.ago gs k = some g ∧ f.get r = some v ∧ g.get r = some v' ∧
      smaGet fs.heap v p = .ok (some x) ∧ smaGet gs.heap v' p = .ok (some x) := by
  obtain ⟨P, hP⟩ := H.behind hm hm'
  have hlt : k < gs.heap.length := by omega
  obtain ⟨g, hg⟩ : ∃ g, Spec.ago gs k = some g := ⟨_, by rw [ago_eq hlt]; exact List.getElem?_eq_getElem (by omega)⟩
  obtain ⟨i, f, h1, h2, h3, h4, hn⟩ := hP.ago hg
  obtain ⟨v, a1, a2⟩ := C45_sma_partial u q m hm fs h H.long r mp p hp hpm hr _ f h4
  obtain ⟨v', b1, b2⟩ := C45_sma_partial u q m' hm' gs h' H.short r mp' p hp hpm' hr' i g h2
  have hl : (Spec.lastValues gs i).length = i + 1 := lastValues_length h2
  have e2 : Spec.mean p (Spec.lastValues gs i) = some (rnd (fdiv (fsum (Spec.lastN p (Spec.lastValues gs i))) p)) := by
    unfold Spec.mean; rw [if_neg (by omega)]
  have e1 : Spec.mean p (Spec.lastValues fs (P.length + i)) = Spec.mean p (Spec.lastValues gs i) := by
    unfold Spec.mean
    rw [hP.lasts, lastN_append _ _ _ (by omega), if_neg (by rw [List.length_append]; omega), if_neg (by omega)]
  rw [e1, e2] at a2
  rw [e2] at b2
  exact ⟨f, g, v, v', _, h3, hg, a1, b1, a2, b2⟩

/-- C102: an RSI over `n` changes needs `n + 1` frames. -/
theorem C102_rsi (u : Unit') (q m m' : ℤ) (hm : 2 ≤ m) (hm' : 2 ≤ m') (fs gs : FrameSet) (h h' : List HEv)
    (H : Spec.Earlier u q m m' fs gs h h') (r : String) (p p' : ℤ) (n : ℕ) (hn : 2 ≤ n)
    (hr : Spec.Registered h r ⟨r, .rsi p (some n), false⟩) (hr' : Spec.Registered h' r ⟨r, .rsi p' (some n), false⟩) (k : ℕ)
    (hk : k + n + 1 ≤ gs.heap.length) :
    ∃ f g v v' x, Spec.ago fs k = some f ∧ Spec.ago gs k = some g ∧ f.get r = some v ∧ g.get r = some v' ∧
      v.rsi = some x ∧ v'.rsi = some x := by
  obtain ⟨P, hP⟩ := H.behind (by omega) (by omega)
  have hlt : k < gs.heap.length := by omega
  obtain ⟨g, hg⟩ : ∃ g, Spec.ago gs k = some g := ⟨_, by rw [ago_eq hlt]; exact List.getElem?_eq_getElem (by omega)⟩
  obtain ⟨i, f, h1, h2, h3, h4, -⟩ := hP.ago hg
  obtain ⟨v, a1, a2⟩ := rsi_value hm H.long hn hr h4
  obtain ⟨v', b1, b2⟩ := rsi_value hm' H.short hn hr' h2
  rcases a2 with ⟨a2, -⟩ | ⟨-, x, a3, a4⟩
  · omega
  rcases b2 with ⟨b2, -⟩ | ⟨-, y, b3, b4⟩
  · omega
  have hl : (Spec.lastValues gs i).length = i + 1 := lastValues_length h2
  have e : Spec.window fs n (P.length + i) = Spec.window gs n i := by
    unfold Spec.window
    rw [hP.lasts, lastN_diffs _ _ (by omega)]
  rw [e, b3] at a3
  cases a3
  exact ⟨f, g, v, v', _, h3, hg, a1, b1, a4, b4⟩

theorem Behind.value {u : Unit'} {q m m' : ℤ} (hm : 1 ≤ m) (hm' : 1 ≤ m') {P : List Frame} {fs gs : FrameSet} {h h' : List HEv}
    (hP : Behind P fs gs) (hF : Feeds u q m fs h) (hF' : Feeds u q m' gs h') {r : String} {ind ind' : Indicator}
    (hi : ind.marketOpenOnly = false) (hi' : ind'.marketOpenOnly = false)
    (hr : Spec.Registered h r ind) (hr' : Spec.Registered h' r ind') {i : ℕ} {f g : Frame} (hg : gs.heap[i]? = some g)
    (hf : fs.heap[P.length + i]? = some f) : ∃ v v', f.get r = some v ∧ g.get r = some v' ∧ v.ind = ind ∧ v'.ind = ind' ∧
      v.first = v'.first ∧ v.high = v'.high ∧ v.low = v'.low ∧ v.last = v'.last := by
  obtain ⟨f', hf', hn⟩ := hP.get hg
  rw [hf] at hf'
  cases hf'
  obtain ⟨A, hB, hA⟩ := always_of_registered hm hF hr hi
  obtain ⟨A', hB', hA'⟩ := always_of_registered hm' hF' hr' hi'
  obtain ⟨v, a1, a2, a3, a4, a5, a6⟩ := hB.value_frame hm hA hf
  obtain ⟨v', b1, b2, b3, b4, b5, b6⟩ := hB'.value_frame hm' hA' hg
  refine ⟨v, v', a1, b1, a2, b2, ?_⟩
  rw [a3, a4, a5, a6, b3, b4, b5, b6]
  cases f; cases g
  simp only [Frame.naked, Frame.mk.injEq] at hn
  obtain ⟨-, -, -, -, -, rfl, rfl, rfl, rfl, -⟩ := hn
  exact ⟨rfl, rfl, rfl, rfl⟩

/-- C102: Japanese candles, and the last of a Heikin-Ashi candle, are the same from the first frame on. -/
theorem C102_candles (u : Unit') (q m m' : ℤ) (hm : 1 ≤ m) (hm' : 1 ≤ m') (fs gs : FrameSet) (h h' : List HEv)
    (H : Spec.Earlier u q m m' fs gs h h') (r : String) (ind ind' : Indicator) (hi : ind.marketOpenOnly = false)
    (hi' : ind'.marketOpenOnly = false) (hr : Spec.Registered h r ind) (hr' : Spec.Registered h' r ind') (k : ℕ)
    (hk : k < gs.heap.length) :
    ∃ f g v v', Spec.ago fs k = some f ∧ Spec.ago gs k = some g ∧ f.get r = some v ∧ g.get r = some v' ∧
      jOhlc v = jOhlc v' ∧ haLast v = haLast v' := by
  obtain ⟨P, hP⟩ := H.behind hm hm'
  obtain ⟨g, hg⟩ : ∃ g, Spec.ago gs k = some g := ⟨_, by rw [ago_eq hk]; exact List.getElem?_eq_getElem (by omega)⟩
  obtain ⟨i, f, -, h2, h3, h4, -⟩ := hP.ago hg
  obtain ⟨v, v', a1, a2, -, -, b1, b2, b3, b4⟩ := hP.value hm hm' H.long H.short hi hi' hr hr' h2 h4
  refine ⟨f, g, v, v', h3, hg, a1, a2, ?_, ?_⟩
  · unfold jOhlc jOpen jHigh jLow jLast; rw [b1, b2, b3, b4]
  · unfold haLast; rw [b1, b2, b3, b4]

theorem heap_view {u : Unit'} {q m : ℤ} (hm : 1 ≤ m) {fs : FrameSet} {h : List HEv} (hF : Feeds u q m fs h) (j : ℕ) :
    fs.view[j]? = fs.heap[fs.heap.length - m.toNat + j]? := by
  obtain ⟨A, hB, -⟩ := feeds_built hm hF
  rw [(hB.rep hm).view_get, (hB.rep hm).len, hB.fields.2.2]

/-- The value before one whose frame and its predecessor are in memory. -/
theorem previous_value {u : Unit'} {q m : ℤ} (hm : 1 ≤ m) {fs : FrameSet} {h : List HEv} (hF : Feeds u q m fs h) {i : ℕ} {f g : Frame}
    (hl : fs.heap.length ≤ i + m.toNat) (hf : fs.heap[i]? = some f) (hg : fs.heap[i + 1]? = some g) {r : String} {v w : IndVal}
    (hv : f.get r = some v) (hw : g.get r = some w) : w.previous fs.heap = some v := by
  have hi := (List.getElem?_eq_some_iff.mp hg).1
  have e1 : fs.view[i - (fs.heap.length - m.toNat)]? = some f := by
    rw [heap_view hm hF, ← hf]; congr 1; omega
  have e2 : fs.view[i + 1 - (fs.heap.length - m.toNat)]? = some g := by
    rw [heap_view hm hF, ← hg]; congr 1; omega
  refine ((C41_navigation u q m hm fs h hF _ g e2 r w hw).1 v).mpr ⟨_, f, by omega, e1, hv, ?_⟩
  intro k' g' h1 h2
  omega

/-- C102: pivots need the frame before, in memory. -/
theorem C102_pivots (u : Unit') (q m m' : ℤ) (hm : 2 ≤ m) (hm' : 2 ≤ m') (fs gs : FrameSet) (h h' : List HEv)
    (H : Spec.Earlier u q m m' fs gs h h') (r : String) (ind : Indicator) (hi : ind.marketOpenOnly = false)
    (hr : Spec.Registered h r ind) (hr' : Spec.Registered h' r ind) (k : ℕ)
    (hk : k + 2 ≤ gs.heap.length) (hk1 : (k : ℤ) + 2 ≤ m) (hk2 : (k : ℤ) + 2 ≤ m') :
    ∃ f g v v', Spec.ago fs k = some f ∧ Spec.ago gs k = some g ∧ f.get r = some v ∧ g.get r = some v' ∧
      (∃ x, pivotOf fs.heap v = some x) ∧ pivotOf fs.heap v = pivotOf gs.heap v' ∧
      support1 fs.heap v = support1 gs.heap v' ∧ support2 fs.heap v = support2 gs.heap v' ∧
      support3 fs.heap v = support3 gs.heap v' ∧ resistance1 fs.heap v = resistance1 gs.heap v' ∧
      resistance2 fs.heap v = resistance2 gs.heap v' ∧ resistance3 fs.heap v = resistance3 gs.heap v' := by
  have hm1 : 1 ≤ m := by omega
  have hm1' : 1 ≤ m' := by omega
  obtain ⟨P, hP⟩ := H.behind hm1 hm1'
  have hl := hP.len
  have hlt : k < gs.heap.length := by omega
  obtain ⟨g, hg⟩ : ∃ g, Spec.ago gs k = some g := ⟨_, by rw [ago_eq hlt]; exact List.getElem?_eq_getElem (by omega)⟩
  obtain ⟨i, f, h1, h2, h3, h4, -⟩ := hP.ago hg
  obtain ⟨i, rfl⟩ : ∃ j, i = j + 1 := ⟨i - 1, by omega⟩
  obtain ⟨g0, hg0⟩ : ∃ g0, gs.heap[i]? = some g0 := ⟨_, List.getElem?_eq_getElem (by omega)⟩
  obtain ⟨f0, hf0, -⟩ := hP.get hg0
  obtain ⟨v, v', a1, a2, a3, a4, b1, b2, b3, b4⟩ := hP.value hm1 hm1' H.long H.short hi hi hr hr' h2 h4
  obtain ⟨w, w', c1, c2, -, -, d1, d2, d3, d4⟩ := hP.value hm1 hm1' H.long H.short hi hi hr hr' hg0 hf0
  have p1 : v.previous fs.heap = some w := previous_value hm1 H.long (by omega) hf0 (by rw [← h4]; rfl) c1 a1
  have p2 : v'.previous gs.heap = some w' := previous_value hm1' H.short (by omega) hg0 h2 c2 a2
  have ec : pivotClassic fs.heap v = pivotClassic gs.heap v' := by
    unfold pivotClassic; rw [p1, p2, Option.map_some, Option.map_some, d2, d3, d4]
  have eo : pivotOLHC fs.heap v = pivotOLHC gs.heap v' := by
    unfold pivotOLHC; rw [p1, p2, Option.map_some, Option.map_some, d2, d3, d4, b1]
  have ep : pivotOf fs.heap v = pivotOf gs.heap v' := by
    unfold pivotOf; rw [a3, a4]; split
    · exact eo
    · exact ec
  have el : ∀ F : ℚ → IndVal → ℚ, (∀ x, F x w = F x w') → pivotLevel fs.heap v F = pivotLevel gs.heap v' F := by
    intro F hF
    unfold pivotLevel
    rw [ep, p1, p2]
    split
    · rfl
    · rw [Option.map_some, Option.map_some, hF]
  refine ⟨f, g, v, v', h3, hg, a1, a2, ?_, ep, el _ ?_, el _ ?_, el _ ?_, el _ ?_, el _ ?_, el _ ?_⟩
  · unfold pivotOf; split
    · exact ⟨_, by unfold pivotOLHC; rw [p1]; rfl⟩
    · exact ⟨_, by unfold pivotClassic; rw [p1]; rfl⟩
  all_goals intro x; simp only [d2, d3]

/-- C102: a Heikin-Ashi candle looks at all frames in memory: with the same memory limit it is the same once the memory is full. -/
theorem C102_heikin (u : Unit') (q m : ℤ) (hm : 1 ≤ m) (fs gs : FrameSet) (h h' : List HEv)
    (H : Spec.Earlier u q m m fs gs h h') (r : String)
    (hr : Spec.Registered h r ⟨r, .heikin, false⟩) (hr' : Spec.Registered h' r ⟨r, .heikin, false⟩)
    (hl : m ≤ gs.heap.length) (k : ℕ) (hk : (k : ℤ) < m) :
    ∃ f g v v' o, Spec.ago fs k = some f ∧ Spec.ago gs k = some g ∧ f.get r = some v ∧ g.get r = some v' ∧
      haOhlc fs.heap v = .ok o ∧ haOhlc gs.heap v' = .ok o := by
  obtain ⟨P, hP⟩ := H.behind hm hm
  have hlen := hP.len
  have kr : ∀ {h : List HEv}, Spec.Registered h r ⟨r, .heikin, false⟩ → ∀ x ∈ h, ∀ ind, x.reg.get? r = some ind → ind.kind = .heikin := by
    intro h hr x hx ind he
    rw [hr x hx] at he
    cases he; rfl
  have key : ∀ (j : ℕ) (f g : Frame) (v v' : IndVal), fs.view[j]? = some f → gs.view[j]? = some g → f.get r = some v →
      g.get r = some v' → v.first = v'.first → haOpen fs.heap v = haOpen gs.heap v' := by
    intro j
    induction j with
    | zero =>
      intro f g v v' hf hg hv hv' he
      rw [(C44_chain u q m hm fs h H.long r (kr hr) 0 f hf v hv).1 (fun k _ hk => by omega),
        (C44_chain u q m hm gs h' H.short r (kr hr') 0 g hg v' hv').1 (fun k _ hk => by omega), he]
    | succ j ih =>
      intro f g v v' hf hg hv hv' he
      have hj := (List.getElem?_eq_some_iff.mp hg).1
      have hi := hj
      have hg' := hg
      rw [heap_view hm H.short] at hg'
      have hlt := (List.getElem?_eq_some_iff.mp hg').1
      obtain ⟨g0, hg0⟩ : ∃ g0, gs.heap[gs.heap.length - m.toNat + j]? = some g0 := ⟨_, List.getElem?_eq_getElem (by omega)⟩
      obtain ⟨f0, hf0, -⟩ := hP.get hg0
      obtain ⟨w, w', c1, c2, -, -, d1, d2, d3, d4⟩ := hP.value hm hm H.long H.short rfl rfl hr hr' hg0 hf0
      have vg : gs.view[j]? = some g0 := by rw [heap_view hm H.short]; exact hg0
      have vf : fs.view[j]? = some f0 := by
        rw [heap_view hm H.long, ← hf0]; congr 1; omega
      obtain ⟨o, x1, x2⟩ := (C44_chain u q m hm fs h H.long r (kr hr) (j + 1) f hf v hv).2 j f0 w (by omega) vf c1
        (fun k' _ h1 h2 => by omega)
      obtain ⟨o', y1, y2⟩ := (C44_chain u q m hm gs h' H.short r (kr hr') (j + 1) g hg v' hv').2 j g0 w' (by omega) vg c2
        (fun k' _ h1 h2 => by omega)
      have e := ih f0 g0 w w' vf vg c1 c2 d1
      rw [x1, y1] at e
      cases e
      have el : haLast w = haLast w' := by unfold haLast; rw [d1, d2, d3, d4]
      rw [x2, y2, el]
  have hlt : k < gs.heap.length := by omega
  obtain ⟨g, hg⟩ : ∃ g, Spec.ago gs k = some g := ⟨_, by rw [ago_eq hlt]; exact List.getElem?_eq_getElem (by omega)⟩
  obtain ⟨i, f, h1, h2, h3, h4, -⟩ := hP.ago hg
  obtain ⟨v, v', a1, a2, -, -, b1, b2, b3, b4⟩ := hP.value hm hm H.long H.short rfl rfl hr hr' h2 h4
  have vg : gs.view[i - (gs.heap.length - m.toNat)]? = some g := by
    rw [heap_view hm H.short, ← h2]; congr 1; omega
  have vf : fs.view[i - (gs.heap.length - m.toNat)]? = some f := by
    rw [heap_view hm H.long, ← h4]; congr 1; omega
  have e := key _ f g v v' vf vg a1 a2 b1
  obtain ⟨o, -, -, ho, -⟩ := C44_order u q m hm fs h H.long r (kr hr) f (List.mem_of_getElem? h4) v a1
  have el : haLast v = haLast v' := by unfold haLast; rw [b1, b2, b3, b4]
  have e' := e.symm.trans ho
  refine ⟨f, g, v, v', _, h3, hg, a1, a2, by unfold haOhlc haHigh haLow; rw [ho]; rfl, ?_⟩
  unfold haOhlc haHigh haLow
  rw [e', ← el, ← b2, ← b3]; rfl

/-- C102: while all common frames are in memory of both sets, the difference of the opens of Heikin-Ashi candles halves with every frame, up to
two cents. -/
theorem C102_heikin_decays (hE : Exact) (u : Unit') (q m m' : ℤ) (hm : 1 ≤ m) (hm' : 1 ≤ m') (fs gs : FrameSet) (h h' : List HEv)
    (H : Spec.Earlier u q m m' fs gs h h') (r : String)
    (hr : Spec.Registered h r ⟨r, .heikin, false⟩) (hr' : Spec.Registered h' r ⟨r, .heikin, false⟩)
    (hl : (gs.heap.length : ℤ) ≤ m) (hl' : (gs.heap.length : ℤ) ≤ m') :
    ∃ (o : ℕ → ℚ) (o' : ℕ → ℚ), (∀ k < gs.heap.length, ∃ f g v v', Spec.ago fs k = some f ∧ Spec.ago gs k = some g ∧ f.get r = some v ∧
        g.get r = some v' ∧ haOpen fs.heap v = .ok (o k) ∧ haOpen gs.heap v' = .ok (o' k)) ∧
      ∀ k n, k + n + 1 = gs.heap.length → |o k - o' k| ≤ |o (k + n) - o' (k + n)| / 2 ^ n + 1 / 50 := by
  obtain ⟨P, hP⟩ := H.behind hm hm'
  have hlen := hP.len
  have kr : ∀ {h : List HEv}, Spec.Registered h r ⟨r, .heikin, false⟩ → ∀ x ∈ h, ∀ ind, x.reg.get? r = some ind → ind.kind = .heikin := by
    intro h hr x hx ind he
    rw [hr x hx] at he
    cases he; rfl
  have val : ∀ i < gs.heap.length, ∃ (f g : Frame) (v v' : IndVal) (a b : ℚ), gs.heap[i]? = some g ∧ fs.heap[P.length + i]? = some f ∧
      f.get r = some v ∧ g.get r = some v' ∧ haOpen fs.heap v = .ok a ∧ haOpen gs.heap v' = .ok b ∧ haLast v = haLast v' := by
    intro i hi
    have hg : gs.heap[i]? = some gs.heap[i] := List.getElem?_eq_getElem hi
    obtain ⟨f, hf, -⟩ := hP.get hg
    obtain ⟨v, v', a1, a2, -, -, b1, b2, b3, b4⟩ := hP.value hm hm' H.long H.short rfl rfl hr hr' hg hf
    obtain ⟨a, -, -, ha, -⟩ := C44_order u q m hm fs h H.long r (kr hr) f (List.mem_of_getElem? hf) v a1
    obtain ⟨b, -, -, hb, -⟩ := C44_order u q m' hm' gs h' H.short r (kr hr') _ (List.mem_of_getElem? hg) v' a2
    exact ⟨f, _, v, v', a, b, hg, hf, a1, a2, ha, hb, by unfold haLast; rw [b1, b2, b3, b4]⟩
  have hpos : 0 < gs.heap.length := List.length_pos_iff.mpr hP.ne
  haveI : Nonempty Frame := ⟨(val 0 hpos).choose⟩
  haveI : Nonempty IndVal := by obtain ⟨_, _, v, _⟩ := val 0 hpos; exact ⟨v⟩
  choose! F G V W a b e1 e2 e3 e4 e5 e6 e7 using val
  have step : ∀ i, i + 1 < gs.heap.length → |a (i + 1) - b (i + 1)| ≤ |a i - b i| / 2 + 1 / 100 := by
    intro i hi
    have vf : ∀ j < gs.heap.length, fs.view[fs.heap.length - (fs.heap.length - m.toNat) - gs.heap.length + j]? = some (F j) := by
      intro j hj
      rw [heap_view hm H.long, ← e2 j hj]; congr 1; omega
    have vg : ∀ j < gs.heap.length, gs.view[j]? = some (G j) := by
      intro j hj
      rw [heap_view hm' H.short, ← e1 j hj]; congr 1; omega
    obtain ⟨o, x1, x2⟩ := (C44_chain u q m hm fs h H.long r (kr hr) _ (F (i + 1)) (vf _ hi) (V (i + 1)) (e3 _ hi)).2
      (fs.heap.length - (fs.heap.length - m.toNat) - gs.heap.length + i) (F i) (V i) (by omega) (vf i (by omega)) (e3 i (by omega))
      (fun k' _ h1 h2 => by omega)
    obtain ⟨o', y1, y2⟩ := (C44_chain u q m' hm' gs h' H.short r (kr hr') _ (G (i + 1)) (vg _ hi) (W (i + 1)) (e4 _ hi)).2
      i (G i) (W i) (by omega) (vg i (by omega)) (e4 i (by omega)) (fun k' _ h1 h2 => by omega)
    rw [e5 i (by omega)] at x1
    rw [e6 i (by omega)] at y1
    cases x1; cases y1
    rw [e5 _ hi, rnd_exact hE, fdiv_exact hE, fadd_exact hE] at x2
    rw [e6 _ hi, rnd_exact hE, fdiv_exact hE, fadd_exact hE] at y2
    rw [Except.ok.inj x2, Except.ok.inj y2, ← e7 i (by omega)]
    have c1 := cent_abs ((a i + haLast (V i)) / 2)
    have c2 := cent_abs ((b i + haLast (V i)) / 2)
    have e : (a i + haLast (V i)) / 2 - (b i + haLast (V i)) / 2 = (a i - b i) / 2 := by ring
    have e' : |(a i - b i) / 2| = |a i - b i| / 2 := by rw [abs_div]; norm_num
    rw [← e', ← e]
    rw [abs_le] at c1 c2 ⊢
    have := neg_abs_le ((a i + haLast (V i)) / 2 - (b i + haLast (V i)) / 2)
    have := le_abs_self ((a i + haLast (V i)) / 2 - (b i + haLast (V i)) / 2)
    constructor <;> linarith
  have all : ∀ i, i < gs.heap.length → |a i - b i| ≤ |a 0 - b 0| / 2 ^ i + 1 / 50 := by
    intro i
    induction i with
    | zero => intro _; simp
    | succ i ih =>
      intro hi
      have h1 := ih (by omega)
      have h2 := step i hi
      have h3 : |a 0 - b 0| / 2 ^ (i + 1) = |a 0 - b 0| / 2 ^ i / 2 := by rw [pow_succ, div_div]
      rw [h3]
      linarith
  refine ⟨fun k => a (gs.heap.length - 1 - k), fun k => b (gs.heap.length - 1 - k), ?_, ?_⟩
  · intro k hk
    refine ⟨F (gs.heap.length - 1 - k), G (gs.heap.length - 1 - k), V (gs.heap.length - 1 - k), W (gs.heap.length - 1 - k), ?_, ?_,
      e3 _ (by omega), e4 _ (by omega), e5 _ (by omega), e6 _ (by omega)⟩
    · rw [ago_eq (by omega), ← e2 _ (by omega)]; congr 1; omega
    · rw [ago_eq hk, ← e1 _ (by omega)]
  · intro k n hn
    have h1 := all (gs.heap.length - 1 - k) (by omega)
    have h2 : gs.heap.length - 1 - k = n := by omega
    have h3 : gs.heap.length - 1 - (k + n) = 0 := by omega
    simp only
    rw [h3, h2]
    rw [h2] at h1
    exact h1

/-- The opens of Heikin-Ashi candles of single ticks, all in memory. -/
theorem heikin_opens {m : ℤ} (hm : 1 ≤ m) {fs : FrameSet} {h : List HEv} (hF : Feeds .tick 1 m fs h) (ha : Spec.FromEpic h)
    {r : String} (hr : Spec.Registered h r ⟨r, .heikin, false⟩) (hl : (h.length : ℤ) ≤ m) (o : ℕ → ℚ)
    (h0 : ∀ e, h[0]? = some e → o 0 = e.tick.value)
    (hs : ∀ (j : ℕ) (e : HEv), h[j]? = some e → o (j + 1) = rnd (fdiv (fadd (o j)
      (rnd (fdiv (fadd (fadd (fadd e.tick.value e.tick.value) e.tick.value) e.tick.value) 4))) 2)) :
    fs.heap.length = h.length ∧ ∀ (j : ℕ) (e : HEv), h[j]? = some e → ∃ f v, fs.heap[j]? = some f ∧ f.get r = some v ∧
      v.first = e.tick ∧ v.high = e.tick ∧ v.low = e.tick ∧ v.last = e.tick ∧ haOpen fs.heap v = .ok (o j) := by
  have hB := feeds_tick (by decide) hm hF ha
  have hlen : fs.heap.length = h.length := by
    rw [(hB.rep hm).len]
    unfold tickAF
    rw [List.length_map, List.length_range]
    simp
  refine ⟨hlen, ?_⟩
  have hv : fs.view = fs.heap := view_all hm hF (by omega)
  have kr : ∀ x ∈ h, ∀ ind, x.reg.get? r = some ind → ind.kind = .heikin := by
    intro x hx ind he
    rw [hr x hx] at he
    cases he; rfl
  have val : ∀ (j : ℕ) (e : HEv), h[j]? = some e → ∃ f v, fs.heap[j]? = some f ∧ f.get r = some v ∧
      v.first = e.tick ∧ v.high = e.tick ∧ v.low = e.tick ∧ v.last = e.tick := by
    intro j e he
    have hj := (List.getElem?_eq_some_iff.mp he).1
    have hf : fs.heap[j]? = some fs.heap[j] := List.getElem?_eq_getElem (by omega)
    have hd : (h.drop (j * (1 : ℤ).toNat)).take (1 : ℤ).toNat = [e] := by
      have h1 : (1 : ℤ).toNat = 1 := rfl
      rw [h1, Nat.mul_one, List.take_one, List.head?_drop, he]; rfl
    have := C40_tick_frames 1 m (by decide) hm fs h hF ha j _ hf r ⟨r, .heikin, false⟩ (by
      intro x hx
      rw [hd] at hx
      exact hr x (List.mem_of_getElem? (by rw [he, List.mem_singleton.mp hx])))
    rw [hd] at this
    have hE : Spec.Eligible ⟨r, .heikin, false⟩ [e] = [e.tick] := rfl
    rw [hE] at this
    rcases this with ⟨h1, -⟩ | ⟨-, v, h1, -, h2⟩
    · cases h1
    · have s' : Spec.Summary [e.tick] e.tick e.tick e.tick e.tick :=
        ⟨rfl, rfl, ⟨[], [], rfl, by simp, by simp⟩, ⟨[], [], rfl, by simp, by simp⟩⟩
      exact ⟨_, v, hf, h1, h2.unique s'⟩
  intro j
  induction j with
  | zero =>
    intro e he
    obtain ⟨f, v, hf, hv', a1, a2, a3, a4⟩ := val 0 e he
    refine ⟨f, v, hf, hv', a1, a2, a3, a4, ?_⟩
    rw [(C44_chain .tick 1 m hm fs h hF r kr 0 f (by rw [hv]; exact hf) v hv').1 (fun k _ hk => by omega), a1, h0 e he]
  | succ j ih =>
    intro e he
    obtain ⟨f, v, hf, hv', a1, a2, a3, a4⟩ := val (j + 1) e he
    refine ⟨f, v, hf, hv', a1, a2, a3, a4, ?_⟩
    have hj := (List.getElem?_eq_some_iff.mp he).1
    have hd : h[j]? = some h[j] := List.getElem?_eq_getElem (by omega)
    obtain ⟨g, w, hg, hw, b1, b2, b3, b4, b5⟩ := ih _ hd
    obtain ⟨x, x1, x2⟩ := (C44_chain .tick 1 m hm fs h hF r kr (j + 1) f (by rw [hv]; exact hf) v hv').2 j g w (by omega)
      (by rw [hv]; exact hg) hw (fun k' _ h1 h2 => by omega)
    rw [b5] at x1
    cases x1
    rw [x2, hs j _ hd]
    unfold haLast
    rw [b1, b2, b3, b4]

/-- In exact arithmetic a set of TICK frames with a Heikin-Ashi indicator takes any ticks. -/
theorem heikin_feeds (hE : Exact) {q m : ℤ} (hm : 1 ≤ m) {D : Dict Indicator} (hsafe : ∀ d ∈ D, d.2.kind.Safe) (l : List (Ctx × Tick)) :
    ∀ (fs0 : FrameSet) (h0 : List HEv), Feeds .tick q m fs0 h0 → (∀ e ∈ h0, e.reg = D) → fs0.indicators = D →
    ∃ fs h, Feeds .tick q m fs (h0 ++ h) ∧ h.map (fun e => (e.ctx, e.tick)) = l ∧ (∀ e ∈ h, e.reg = D) ∧ fs.indicators = D := by
  induction l with
  | nil => intro fs0 h0 hF _ hi; exact ⟨fs0, [], by simpa using hF, rfl, by simp, hi⟩
  | cons p l ih =>
    intro fs0 h0 hF hr hi
    obtain ⟨fs1, h1⟩ := C47_never_raises_tick_exact hE q m hm fs0 h0 hF D hr hi hsafe p.1 p.2
    obtain ⟨A, hB, -⟩ := feeds_groups hm hF
    have hi1 := (onNewTick_indicators hm hB h1).trans hi
    have hF1 := Feeds.tick p.1 p.2 hF h1
    obtain ⟨fs, h, g1, g2, g3, g4⟩ := ih fs1 _ hF1 (by
      intro e he
      rcases List.mem_append.mp he with he | he
      · exact hr e he
      · rw [List.mem_singleton.mp he]; exact hi) hi1
    refine ⟨fs, ⟨p.1, p.2, fs0.indicators⟩ :: h, by simpa using g1, by simp [g2], ?_, g4⟩
    intro e he
    rcases List.mem_cons.mp he with rfl | he
    · exact hi
    · exact g3 e he

end

section examples
open Demo (with1 at' value obs value_some feeds1)

/-- A tick that costs `x`. -/
def Demo.coin (x : ℕ) : Ctx × Tick := at' 0 true x

theorem coin_value (x : ℕ) : letI := Arith.exact; (Demo.coin x).2.value = x := by
  letI := Arith.exact
  have h : (x : ℚ) + (((0 : ℤ) : ℚ)) / 2 = ((x : ℤ) : ℚ) := by push_cast; ring
  have hs : (Demo.coin x).2.spread = ((0 : ℤ) : ℚ) := by
    show rnd (fsub (x : ℚ) x) = _
    rw [rnd_exact exact_exact, fsub_exact exact_exact, sub_self]
    exact cent_int 0
  unfold Tick.value
  rw [hs]
  show rnd (fadd (x : ℚ) _) = x
  rw [rnd_exact exact_exact, fadd_exact exact_exact, fdiv_exact exact_exact, h, cent_int]
  push_cast; rfl

/-- C102: no number of frames is enough for a Heikin-Ashi candle, whatever the memory limit: after a first tick of `2 ^ (N + 1)` the open of
the latest of `N + 1` further candles at 0 is 2, not 0. -/
theorem C102_heikin_endless : letI := Arith.exact
    ∀ N : ℕ, ∃ (m : ℤ) (fs gs : FrameSet) (h h' : List HEv), 1 ≤ m ∧ Spec.Earlier .tick 1 m m fs gs h h' ∧
      Spec.Registered h "h" ⟨"h", .heikin, false⟩ ∧ Spec.Registered h' "h" ⟨"h", .heikin, false⟩ ∧ N + 1 = gs.heap.length ∧
      ∃ f g v v' : _, Spec.ago fs 0 = some f ∧ Spec.ago gs 0 = some g ∧ f.get "h" = some v ∧ g.get "h" = some v' ∧
        haOpen fs.heap v = .ok 2 ∧ haOpen gs.heap v' = .ok 0 := by
  letI := Arith.exact
  intro N
  have hE : Exact := exact_exact
  have hm : (1 : ℤ) ≤ N + 2 := by omega
  set D : Dict Indicator := [("h", ⟨"h", .heikin, false⟩)] with hD
  have hsafe : ∀ d ∈ D, d.2.kind.Safe := by
    intro d hd
    rw [List.mem_singleton.mp hd]
    trivial
  have new : ∀ m : ℤ, Feeds .tick 1 m (with1 .tick 1 m ⟨"h", .heikin, false⟩) [] := fun m => Feeds.ind _ Feeds.new
  have reg : ∀ h : List HEv, (∀ e ∈ h, e.reg = D) → Spec.Registered h "h" ⟨"h", .heikin, false⟩ := by
    intro h hh e he
    rw [hh e he]
    decide
  have epic : ∀ (h : List HEv) (l : List ℕ), h.map (fun e => (e.ctx, e.tick)) = l.map Demo.coin → Spec.FromEpic h := by
    intro h l he e hm
    have : (e.ctx, e.tick) ∈ l.map Demo.coin := by rw [← he]; exact List.mem_map_of_mem hm
    obtain ⟨x, -, hx⟩ := List.mem_map.mp this
    have h1 : e.ctx = (Demo.coin x).1 := (congrArg Prod.fst hx).symm
    have h2 : e.tick = (Demo.coin x).2 := (congrArg Prod.snd hx).symm
    rw [h1, h2]
    exact ⟨true, by unfold Demo.coin at'; simp⟩
  have price : ∀ (h : List HEv) (l : List ℕ), h.map (fun e => (e.ctx, e.tick)) = l.map Demo.coin → ∀ (j : ℕ) (e : HEv), h[j]? = some e →
      ∃ x : ℕ, l[j]? = some x ∧ e.tick.value = x := by
    intro h l he j e hj
    have h1 := congrArg (fun k => k[j]?) he
    simp only [List.getElem?_map, hj, Option.map_some] at h1
    obtain ⟨x, hx, h2⟩ := Option.map_eq_some_iff.mp h1.symm
    refine ⟨x, hx, ?_⟩
    have h3 : e.tick = (Demo.coin x).2 := (congrArg Prod.snd h2).symm
    rw [h3, coin_value]
  obtain ⟨fs0, h0, f1, f2, f3, f4⟩ := heikin_feeds hE hm hsafe [Demo.coin (2 ^ (N + 1))] _ [] (new (N + 2)) (by simp) rfl
  rw [List.nil_append] at f1
  obtain ⟨fs, h1, g1, g2, g3, -⟩ := heikin_feeds hE hm hsafe (List.replicate (N + 1) (Demo.coin 0)) fs0 h0 f1 f3 f4
  obtain ⟨gs, h', k1, k2, k3, -⟩ := heikin_feeds hE hm hsafe (List.replicate (N + 1) (Demo.coin 0)) _ [] (new (N + 2)) (by simp) rfl
  rw [List.nil_append] at k1
  have m1 : (h0 ++ h1).map (fun e => (e.ctx, e.tick)) = (2 ^ (N + 1) :: List.replicate (N + 1) 0).map Demo.coin := by
    rw [List.map_append, f2, g2, List.map_cons, List.map_replicate]; rfl
  have m2 : h'.map (fun e => (e.ctx, e.tick)) = (List.replicate (N + 1) 0).map Demo.coin := by rw [k2, List.map_replicate]
  have l1 : (h0 ++ h1).length = N + 2 := by simpa using congrArg List.length m1
  have l2 : h'.length = N + 1 := by simpa using congrArg List.length m2
  have all : ∀ e ∈ h0 ++ h1, e.reg = D := by
    intro e he
    rcases List.mem_append.mp he with he | he
    · exact f3 e he
    · exact g3 e he
  obtain ⟨x, t1, e1⟩ : ∃ x t, h1 = x :: t := List.exists_cons_of_ne_nil (by intro h; rw [h] at g2; simp [List.replicate_succ] at g2)
  obtain ⟨x', t2, e2⟩ : ∃ x t, h' = x :: t := List.exists_cons_of_ne_nil (by intro h; rw [h] at l2; simp at l2)
  have e3 : (x :: t1).map (fun e => (e.ctx, e.tick)) = (x' :: t2).map (fun e => (e.ctx, e.tick)) := by
    rw [← e1, ← e2, g2, k2]
  simp only [List.map_cons, List.cons.injEq, Prod.mk.injEq] at e3
  have H : Spec.Earlier .tick 1 (N + 2) (N + 2) fs gs (h0 ++ h1) h' := by
    refine ⟨g1, k1, h0, fs0, x, x', t1, t2, by rw [e1], e2, e3.1.2, by rw [e3.1.1], e3.2, f1, ?_⟩
    intro f hf
    unfold Spec.Complete
    rw [if_pos rfl]
    obtain ⟨G, -, hG, h5⟩ := C40_values .tick 1 (N + 2) hm fs0 h0 f1
    have hf' : f ∈ fs0.heap := by
      rw [view_getLast hm f1] at hf
      exact List.mem_of_getLast? hf
    obtain ⟨i, hi⟩ := List.mem_iff_getElem?.mp hf'
    have hlt := (List.getElem?_eq_some_iff.mp hi).1
    obtain ⟨h6, h7, -⟩ := h5 i f G[i] hi (List.getElem?_eq_getElem (by omega))
    have := h7.first
    rw [h6]
    rcases hg : G[i] with _ | ⟨a, b⟩
    · rw [hg] at this; cases this
    · simp
  have r1 := reg _ all
  have r2 := reg _ k3
  obtain ⟨a1, a2⟩ := heikin_opens hm g1 (epic _ _ m1) r1 (by rw [l1]; push_cast; omega)
    (fun j => if j = 0 then 2 ^ (N + 1) else 2 ^ (N + 2 - j)) (by
      intro e he
      obtain ⟨y, hy, hv⟩ := price _ _ m1 0 e he
      simp only [List.getElem?_cons_zero, Option.some.injEq] at hy
      rw [hv, ← hy, if_pos rfl]
      push_cast; rfl) (by
      intro j e he
      obtain ⟨y, hy, hv⟩ := price _ _ m1 j e he
      have hj := (List.getElem?_eq_some_iff.mp he).1
      rw [hv]
      simp only [rnd_exact hE, fadd_exact hE, fdiv_exact hE]
      have h4 : ((y : ℚ) + y + y + y) / 4 = ((y : ℤ) : ℚ) := by push_cast; ring
      rw [h4, cent_int, if_neg (by omega)]
      rcases j with _ | j
      · simp only [List.getElem?_cons_zero, Option.some.injEq] at hy
        rw [if_pos rfl, ← hy]
        have : ((2 : ℚ) ^ (N + 1) + (((2 ^ (N + 1) : ℕ) : ℤ) : ℚ)) / 2 = ((2 ^ (N + 1) : ℤ) : ℚ) := by push_cast; ring
        rw [this, cent_int]
        push_cast; rfl
      · rw [List.getElem?_cons_succ, List.getElem?_replicate, if_pos (by omega)] at hy
        cases hy
        rw [if_neg (by omega)]
        have e5 : N + 2 - (j + 1) = (N + 2 - (j + 1 + 1)) + 1 := by omega
        have : ((2 : ℚ) ^ (N + 2 - (j + 1)) + (((0 : ℕ) : ℤ) : ℚ)) / 2 = ((2 ^ (N + 2 - (j + 1 + 1)) : ℤ) : ℚ) := by
          rw [e5]; push_cast; ring
        rw [this, cent_int]
        push_cast; rfl)
  obtain ⟨b1, b2⟩ := heikin_opens hm k1 (epic _ _ m2) r2 (by rw [l2]; push_cast; omega) (fun _ => 0) (by
      intro e he
      obtain ⟨y, hy, hv⟩ := price _ _ m2 0 e he
      rw [List.getElem?_replicate, if_pos (by omega)] at hy
      cases hy
      rw [hv]; rfl) (by
      intro j e he
      obtain ⟨y, hy, hv⟩ := price _ _ m2 j e he
      have hj := (List.getElem?_eq_some_iff.mp he).1
      rw [List.getElem?_replicate, if_pos (by omega)] at hy
      cases hy
      rw [hv]
      decide +kernel)
  obtain ⟨f, v, c1, c2, -, -, -, -, c3⟩ := a2 (N + 1) _ (List.getElem?_eq_getElem (by omega))
  obtain ⟨g, v', d1, d2, -, -, -, -, d3⟩ := b2 N _ (List.getElem?_eq_getElem (by omega))
  refine ⟨N + 2, fs, gs, h0 ++ h1, h', hm, H, r1, r2, by rw [b1, l2], f, g, v, v', ?_, ?_, c2, d2, ?_, d3⟩
  · rw [ago_eq (by omega), ← c1]; congr 1; omega
  · rw [ago_eq (by omega), ← d1]; congr 1; omega
  · rw [c3, if_neg (by omega)]
    have : N + 2 - (N + 1) = 1 := by omega
    rw [this, pow_one]

/-- Two frame sets with the one indicator `ind`, one of which starts with the tick `x`. -/
theorem Demo.joined [Arith] {u : Unit'} {q m m' : ℤ} (hm : 1 ≤ m) (hm' : 1 ≤ m') {ind ind' : Indicator} {pre l : List (Ctx × Tick)}
    {x : Ctx × Tick} {r : String} (hr : (with1 u q m ind).indicators.get? r = some ind')
    (hr' : (with1 u q m' ind).indicators.get? r = some ind') (h1 : (feedAll (with1 u q m ind) (pre ++ x :: l)).isOk = true)
    (h2 : (feedAll (with1 u q m' ind) (x :: l)).isOk = true) (h0 : (feedAll (with1 u q m ind) pre).isOk = true)
    (hc : (feedAll (with1 u q m ind) pre).map (fun fs => (fs.view.getLast?).all (fun f =>
      if u = .tick then decide (q ≤ (f.nbTicks : ℤ)) else f.periodEnd.any (fun e => decide (e ≤ x.2.dt.wall)))) = .ok true) :
    ∃ fs gs h h', Spec.Earlier u q m m' fs gs h h' ∧ Spec.Registered h r ind' ∧ Spec.Registered h' r ind' ∧
      feedAll (with1 u q m ind) (pre ++ x :: l) = .ok fs ∧ feedAll (with1 u q m' ind) (x :: l) = .ok gs := by
  have split : ∀ (a b : List (Ctx × Tick)) (fs : FrameSet), feedAll fs (a ++ b) =
      match feedAll fs a with | .error e => .error e | .ok fs' => feedAll fs' b := by
    intro a
    induction a with
    | nil => intro b fs; rfl
    | cons p a ih =>
      intro b fs
      rw [List.cons_append, feedAll, feedAll]
      rcases fs.onNewTick p.1 p.2 with e | fs'
      · rfl
      · exact ih b fs'
  obtain ⟨fs0, h0', a1, a2, a3, a4, a5⟩ := feeds1 hm h0
  rw [a5] at hc
  rw [split, a5] at h1
  simp only at h1
  rcases hf : feedAll fs0 (x :: l) with e | fs
  · rw [hf] at h1; cases h1
  obtain ⟨k, b1, b2, b3, -⟩ := feeds_of_feedAll_reg hm a1 hf
  obtain ⟨gs, h', c1, c2, c3, -, c5⟩ := feeds1 hm' h2
  obtain ⟨y, t, e1⟩ : ∃ y t, k = y :: t := List.exists_cons_of_ne_nil (by rintro rfl; cases b2)
  obtain ⟨y', t', e2⟩ : ∃ y t, h' = y :: t := List.exists_cons_of_ne_nil (by rintro rfl; cases c2)
  have e3 := b2.trans c2.symm
  rw [e1, e2] at e3
  simp only [List.map_cons, List.cons.injEq, Prod.mk.injEq] at e3
  have ex : y.tick = x.2 := by
    have := b2
    rw [e1] at this
    simp only [List.map_cons, List.cons.injEq] at this
    exact congrArg Prod.snd this.1
  refine ⟨fs, gs, h0' ++ k, h', ⟨b1, c1, h0', fs0, y, y', t, t', by rw [e1], e2, e3.1.2, by rw [e3.1.1], e3.2, a1, ?_⟩, ?_, ?_, ?_, c5⟩
  · intro f hf'
    simp only [Except.map, Except.ok.injEq, hf', Option.all_some] at hc
    unfold Spec.Complete
    rw [ex]
    split_ifs at hc ⊢
    · simpa using hc
    · rcases hp : f.periodEnd with _ | e
      · rw [hp] at hc; cases hc
      · rw [hp] at hc
        exact ⟨e, rfl, by simpa using hc⟩
  · intro e he
    rcases List.mem_append.mp he with he | he
    · rw [a3 e he, hr]
    · rw [b3 e he, a4, hr]
  · intro e he
    rw [c3 e he, hr']
  · rw [split, a5]; exact hf

/-- Two minutes, and three more after a gap. -/
def Demo.before : List (Ctx × Tick) := [at' 0 true 90, at' 60 true 70]

/-- The later minutes. -/
def Demo.after : List (Ctx × Tick) := [at' 360 true 14, at' 420 true 12, at' 430 true 18, at' 540 true 11]

/-- C102: the average over three frames, by sets that keep 10 and 2 frames. -/
example : letI := Arith.exact
    ∃ fs gs h h', Spec.Earlier .minute 1 10 2 fs gs h h' ∧ Spec.Registered h "s" ⟨"s", .sma 3, false⟩ ∧
      Spec.Registered h' "s" ⟨"s", .sma 3, false⟩ ∧ fs.heap.length = 10 ∧ gs.heap.length = 5 ∧
      (value fs 9 "s").map (fun v => (smaGet fs.heap v 3).toOption) = some (some (some (1567 / 100))) ∧
      (value gs 4 "s").map (fun v => (smaGet gs.heap v 3).toOption) = some (some (some (1567 / 100))) := by
  letI := Arith.exact
  obtain ⟨fs, gs, h, h', H, r1, r2, e1, e2⟩ := Demo.joined (u := .minute) (q := 1) (m := 10) (m' := 2) (by decide) (by decide)
    (ind := ⟨"s", .sma 3, false⟩) (ind' := ⟨"s", .sma 3, false⟩) (pre := Demo.before) (x := at' 300 true 16) (l := Demo.after)
    (r := "s") (by decide +kernel) (by decide +kernel) (by decide +kernel) (by decide +kernel) (by decide +kernel) (by decide +kernel)
  exact ⟨fs, gs, h, h', H, r1, r2, obs e1 (g := fun fs => fs.heap.length) (by decide +kernel),
    obs e2 (g := fun fs => fs.heap.length) (by decide +kernel),
    obs e1 (g := fun fs => (value fs 9 "s").map (fun v => (smaGet fs.heap v 3).toOption)) (by decide +kernel),
    obs e2 (g := fun fs => (value fs 4 "s").map (fun v => (smaGet fs.heap v 3).toOption)) (by decide +kernel)⟩

/-- C102: the RSI over two changes. -/
example : letI := Arith.exact
    ∃ fs gs h h', Spec.Earlier .minute 1 10 2 fs gs h h' ∧ Spec.Registered h "r" ⟨"r", .rsi 2 (some 2), false⟩ ∧
      Spec.Registered h' "r" ⟨"r", .rsi 2 (some 2), false⟩ ∧ fs.heap.length = 10 ∧ gs.heap.length = 5 ∧
      (value fs 7 "r").map (fun v => v.rsi) = some (some (6667 / 100)) ∧
      (value gs 2 "r").map (fun v => v.rsi) = some (some (6667 / 100)) := by
  letI := Arith.exact
  obtain ⟨fs, gs, h, h', H, r1, r2, e1, e2⟩ := Demo.joined (u := .minute) (q := 1) (m := 10) (m' := 2) (by decide) (by decide)
    (ind := ⟨"r", .rsi 2 none, false⟩) (ind' := ⟨"r", .rsi 2 (some 2), false⟩) (pre := Demo.before) (x := at' 300 true 16) (l := Demo.after)
    (r := "r") (by decide +kernel) (by decide +kernel) (by decide +kernel) (by decide +kernel) (by decide +kernel) (by decide +kernel)
  exact ⟨fs, gs, h, h', H, r1, r2, obs e1 (g := fun fs => fs.heap.length) (by decide +kernel),
    obs e2 (g := fun fs => fs.heap.length) (by decide +kernel),
    obs e1 (g := fun fs => (value fs 7 "r").map (fun v => v.rsi)) (by decide +kernel),
    obs e2 (g := fun fs => (value fs 2 "r").map (fun v => v.rsi)) (by decide +kernel)⟩

/-- C102: pivots. -/
example : letI := Arith.exact
    ∃ fs gs h h', Spec.Earlier .minute 1 10 5 fs gs h h' ∧ Spec.Registered h "p" ⟨"p", .pivotOLHC, false⟩ ∧
      Spec.Registered h' "p" ⟨"p", .pivotOLHC, false⟩ ∧ fs.heap.length = 10 ∧ gs.heap.length = 5 ∧
      (value fs 8 "p").map (fun v => [pivotOf fs.heap v, support1 fs.heap v, resistance3 fs.heap v]) = some [some (33 / 2), some 15, some 27] ∧
      (value gs 3 "p").map (fun v => [pivotOf gs.heap v, support1 gs.heap v, resistance3 gs.heap v]) = some [some (33 / 2), some 15, some 27] := by
  letI := Arith.exact
  obtain ⟨fs, gs, h, h', H, r1, r2, e1, e2⟩ := Demo.joined (u := .minute) (q := 1) (m := 10) (m' := 5) (by decide) (by decide)
    (ind := ⟨"p", .pivotOLHC, false⟩) (ind' := ⟨"p", .pivotOLHC, false⟩) (pre := Demo.before) (x := at' 300 true 16) (l := Demo.after)
    (r := "p") (by decide +kernel) (by decide +kernel) (by decide +kernel) (by decide +kernel) (by decide +kernel) (by decide +kernel)
  exact ⟨fs, gs, h, h', H, r1, r2, obs e1 (g := fun fs => fs.heap.length) (by decide +kernel),
    obs e2 (g := fun fs => fs.heap.length) (by decide +kernel),
    obs e1 (g := fun fs => (value fs 8 "p").map (fun v => [pivotOf fs.heap v, support1 fs.heap v, resistance3 fs.heap v])) (by decide +kernel),
    obs e2 (g := fun fs => (value fs 3 "p").map (fun v => [pivotOf fs.heap v, support1 fs.heap v, resistance3 fs.heap v])) (by decide +kernel)⟩

/-- C102: Heikin-Ashi candles of sets that keep four frames. -/
example : letI := Arith.exact
    ∃ fs gs h h', Spec.Earlier .minute 1 4 4 fs gs h h' ∧ Spec.Registered h "h" ⟨"h", .heikin, false⟩ ∧
      Spec.Registered h' "h" ⟨"h", .heikin, false⟩ ∧ fs.heap.length = 10 ∧ gs.heap.length = 5 ∧
      (value fs 9 "h").map (fun v => (haOpen fs.heap v).toOption) = some (some (65 / 4)) ∧
      (value gs 4 "h").map (fun v => (haOpen gs.heap v).toOption) = some (some (65 / 4)) := by
  letI := Arith.exact
  obtain ⟨fs, gs, h, h', H, r1, r2, e1, e2⟩ := Demo.joined (u := .minute) (q := 1) (m := 4) (m' := 4) (by decide) (by decide)
    (ind := ⟨"h", .heikin, false⟩) (ind' := ⟨"h", .heikin, false⟩) (pre := Demo.before) (x := at' 300 true 16) (l := Demo.after)
    (r := "h") (by decide +kernel) (by decide +kernel) (by decide +kernel) (by decide +kernel) (by decide +kernel) (by decide +kernel)
  exact ⟨fs, gs, h, h', H, r1, r2, obs e1 (g := fun fs => fs.heap.length) (by decide +kernel),
    obs e2 (g := fun fs => fs.heap.length) (by decide +kernel),
    obs e1 (g := fun fs => (value fs 9 "h").map (fun v => (haOpen fs.heap v).toOption)) (by decide +kernel),
    obs e2 (g := fun fs => (value fs 4 "h").map (fun v => (haOpen fs.heap v).toOption)) (by decide +kernel)⟩

/-- C102: the opens of the five common Heikin-Ashi candles of sets that keep 20 and 5 frames. -/
example : letI := Arith.exact
    ∃ fs gs h h', Spec.Earlier .minute 1 20 5 fs gs h h' ∧ Spec.Registered h "h" ⟨"h", .heikin, false⟩ ∧
      Spec.Registered h' "h" ⟨"h", .heikin, false⟩ ∧ gs.heap.length = 5 ∧
      [5, 6, 7, 8, 9].map (fun i => (value fs i "h").map (fun v => (haOpen fs.heap v).toOption)) =
        [some (some (285 / 4)), some (some (2181 / 50)), some (some (2881 / 100)), some (some (219 / 10)), some (some (399 / 20))] ∧
      [0, 1, 2, 3, 4].map (fun i => (value gs i "h").map (fun v => (haOpen gs.heap v).toOption)) =
        [some (some 16), some (some 16), some (some 15), some (some 15), some (some (33 / 2))] := by
  letI := Arith.exact
  obtain ⟨fs, gs, h, h', H, r1, r2, e1, e2⟩ := Demo.joined (u := .minute) (q := 1) (m := 20) (m' := 5) (by decide) (by decide)
    (ind := ⟨"h", .heikin, false⟩) (ind' := ⟨"h", .heikin, false⟩) (pre := Demo.before) (x := at' 300 true 16) (l := Demo.after)
    (r := "h") (by decide +kernel) (by decide +kernel) (by decide +kernel) (by decide +kernel) (by decide +kernel) (by decide +kernel)
  exact ⟨fs, gs, h, h', H, r1, r2, obs e2 (g := fun fs => fs.heap.length) (by decide +kernel),
    obs e1 (g := fun fs => [5, 6, 7, 8, 9].map (fun i => (value fs i "h").map (fun v => (haOpen fs.heap v).toOption))) (by decide +kernel),
    obs e2 (g := fun fs => [0, 1, 2, 3, 4].map (fun i => (value fs i "h").map (fun v => (haOpen fs.heap v).toOption))) (by decide +kernel)⟩

end examples

end Estrade
