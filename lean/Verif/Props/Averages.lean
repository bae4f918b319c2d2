import Verif.Lemmas.ValInv
import Verif.Lemmas.Samples

/-!
# C45 - C49: moving averages and relative strength index
(estrade/graph/indicators/simple_moving_average.py, estrade/graph/indicators/rsi.py)

`fs.heap` is the list of all frames ever created by the frame set, evicted ones included, in order of
creation; the frames in memory are its last ones (`FrameSet.view`).  A frame at position `i` therefore has `i`
predecessors.
-/

set_option linter.style.haveILetI false
set_option linter.unusedSectionVars false
set_option autoImplicit false

namespace Estrade

section
variable [Arith]

/-- Spec: the indicator was registered under `r` during the whole history. -/
def Spec.Registered (h : List HEv) (r : String) (ind : Indicator) : Prop := ∀ e ∈ h, e.reg.get? r = some ind

theorem always_of_registered {u : Unit'} {q m : ℤ} (hm : 1 ≤ m) {fs : FrameSet} {h : List HEv}
    (hF : Feeds u q m fs h) {r : String} {ind : Indicator} (hr : Spec.Registered h r ind)
    (hi : ind.marketOpenOnly = false) : ∃ A, Built u q m fs A ∧ Always A r ind := by
  obtain ⟨A, hB, hG⟩ := feeds_groups hm hF
  refine ⟨A, hB, ?_, hi⟩
  intro a ha e he
  obtain ⟨x, hx, h1, -⟩ := hG.reg a.evs (List.mem_map_of_mem ha) e he
  rw [h1]
  exact hr x hx

/-! ## C45 -/

/-- Spec: Python's rounded mean of the last `p` numbers, if there are that many. -/
def Spec.mean (p : ℕ) (l : List ℚ) : Option ℚ :=
  if l.length < p then none else some (rnd (fdiv (fsum (Spec.lastN p l)) p))

/-- Spec: the last tick values of the frames up to position `i`. -/
def Spec.lastValues (fs : FrameSet) (i : ℕ) : List ℚ := (fs.heap.take (i + 1)).map (fun f => f.last.value)

theorem lastValues_eq (fs : FrameSet) (i : ℕ) : Spec.lastValues fs i = fs.lasts.take (i + 1) := by
  unfold Spec.lastValues FrameSet.lasts; rw [List.map_take]

theorem lastValues_length {fs : FrameSet} {i : ℕ} {f : Frame} (hf : fs.heap[i]? = some f) :
    (Spec.lastValues fs i).length = i + 1 := by
  have := (List.getElem?_eq_some_iff.mp hf).1
  unfold Spec.lastValues
  rw [List.length_map, List.length_take]; omega

/-- C45 (full): whatever the indicator's `market_open_only`, the average is that of the last values of the
frame and its predecessors, and the memory limit does not matter. -/
def Spec.C45 : Prop :=
  ∀ (u : Unit') (q m : ℤ), 1 ≤ m → ∀ (fs : FrameSet) (h : List HEv), Feeds u q m fs h →
  ∀ (r : String) (mp : ℤ) (moo : Bool) (p : ℕ), 1 ≤ p → (p : ℤ) ≤ mp → Spec.Registered h r ⟨r, .sma mp, moo⟩ →
  ∀ (i : ℕ) (f : Frame) (v : IndVal), fs.heap[i]? = some f → f.get r = some v →
    smaGet fs.heap v p = .ok (Spec.mean p (Spec.lastValues fs i))

/-- C45 for indicators that are not restricted to an open market.  Missing: `market_open_only` averages, for
which it is false (`C45_false`). -/
theorem C45_sma_partial (u : Unit') (q m : ℤ) (hm : 1 ≤ m) (fs : FrameSet) (h : List HEv) (hF : Feeds u q m fs h)
    (r : String) (mp : ℤ) (p : ℕ) (hp : 1 ≤ p) (hpm : (p : ℤ) ≤ mp)
    (hr : Spec.Registered h r ⟨r, .sma mp, false⟩) (i : ℕ) (f : Frame) (hf : fs.heap[i]? = some f) :
    ∃ v, f.get r = some v ∧ smaGet fs.heap v p = .ok (Spec.mean p (Spec.lastValues fs i)) := by
  obtain ⟨A, hB, hA⟩ := always_of_registered hm hF hr rfl
  obtain ⟨v, hv, -, hfr, -⟩ := hB.value hm hA hf
  refine ⟨v, hv, ?_⟩
  have hc := hB.closes hm rfl (by omega) hA i f v hf hv
  have hlen := (List.getElem?_eq_some_iff.mp hf).1
  have hx : fs.lasts[i]? = some f.last.value := by unfold FrameSet.lasts; rw [List.getElem?_map, hf]; rfl
  obtain ⟨hlt, hx⟩ := List.getElem?_eq_some_iff.mp hx
  have hec : extendedCloses v f = sliceFrom (fs.lasts.take i) ((mp - 1) * -1) ++ [f.last.value] := by
    unfold extendedCloses; rw [hc]
  have hone : Spec.lastValues fs i = fs.lasts.take i ++ [f.last.value] := by
    rw [lastValues_eq, ← hx, List.take_append_getElem hlt]
  have hti : (fs.lasts.take i).length = i := by rw [List.length_take]; omega
  have key : Spec.lastN p (extendedCloses v f) = Spec.lastN p (Spec.lastValues fs i) ∧
      ((extendedCloses v f).length < p ↔ i + 1 < p) := by
    rw [hec, hone]
    rcases eq_or_lt_of_le (show 1 ≤ mp by omega) with h1 | h1
    · rw [← h1, show (1 : ℤ) - 1 = 0 from rfl, sliceFrom_zero]
      refine ⟨rfl, ?_⟩
      rw [List.length_append, hti, List.length_singleton]
    · rw [sliceFrom_neg _ (by omega)]
      refine ⟨lastN_snoc _ _ (by omega) _ _, ?_⟩
      rw [List.length_append, List.length_singleton, lastN_length, hti]; omega
  unfold smaGet
  rw [show v.parent fs.heap = some f by unfold IndVal.parent; rw [hfr]; exact hf]
  unfold Spec.mean
  rw [lastValues_length hf]
  simp only
  by_cases h1 : i + 1 < p
  · rw [if_pos h1, if_pos (by exact_mod_cast key.2.mpr h1)]
  · have h2 : ¬ (extendedCloses v f).length < p := fun h => h1 (key.2.mp h)
    rw [if_neg h1, if_neg (by exact_mod_cast h2), sliceFrom_neg _ (by omega), Int.toNat_natCast, key.1]
    have hp0 : (p : ℚ) ≠ 0 := by exact_mod_cast (by omega : p ≠ 0)
    simp only [bind, Except.bind, pyDiv, Int.cast_natCast, if_neg hp0]

/-- With exact arithmetic: the mean of the last `p` last values, rounded to cents; `None` iff there are fewer
than `p` frames. -/
theorem C45_sma_exact_partial (hE : Exact) (u : Unit') (q m : ℤ) (hm : 1 ≤ m) (fs : FrameSet) (h : List HEv)
    (hF : Feeds u q m fs h) (r : String) (mp : ℤ) (p : ℕ) (hp : 1 ≤ p) (hpm : (p : ℤ) ≤ mp)
    (hr : Spec.Registered h r ⟨r, .sma mp, false⟩) (i : ℕ) (f : Frame) (hf : fs.heap[i]? = some f) :
    ∃ v, f.get r = some v ∧ smaGet fs.heap v p = .ok
      (if i + 1 < p then none else
        some (cent ((((fs.heap.take (i + 1)).drop (i + 1 - p)).map (fun f => f.last.value)).sum / p))) := by
  obtain ⟨v, h1, h2⟩ := C45_sma_partial u q m hm fs h hF r mp p hp hpm hr i f hf
  refine ⟨v, h1, ?_⟩
  rw [h2]
  unfold Spec.mean
  rw [lastValues_length hf]
  congr 2
  rw [rnd_exact hE, fdiv_exact hE, fsum_exact hE]
  unfold Spec.lastN
  rw [lastValues_length hf]
  unfold Spec.lastValues
  rw [List.map_drop]

/-- The memory limit does not matter: two frame sets with different limits given the same ticks. -/
theorem C45_memory_independent_partial (u : Unit') (q m m' : ℤ) (hm : 1 ≤ m) (hm' : 1 ≤ m') (fs gs : FrameSet)
    (h h' : List HEv) (hF : Feeds u q m fs h) (hG : Feeds u q m' gs h')
    (he : h.map (fun e => (e.ctx, e.tick)) = h'.map (fun e => (e.ctx, e.tick)))
    (r : String) (mp : ℤ) (p : ℕ) (hp : 1 ≤ p) (hpm : (p : ℤ) ≤ mp)
    (hr : Spec.Registered h r ⟨r, .sma mp, false⟩) (hr' : Spec.Registered h' r ⟨r, .sma mp, false⟩)
    (i : ℕ) (f g : Frame) (hf : fs.heap[i]? = some f) (hg : gs.heap[i]? = some g) :
    ∃ v w, f.get r = some v ∧ g.get r = some w ∧ smaGet fs.heap v p = smaGet gs.heap w p := by
  obtain ⟨v, h1, h2⟩ := C45_sma_partial u q m hm fs h hF r mp p hp hpm hr i f hf
  obtain ⟨w, h3, h4⟩ := C45_sma_partial u q m' hm' gs h' hG r mp p hp hpm hr' i g hg
  refine ⟨v, w, h1, h3, ?_⟩
  have hS : fs.heap.map Frame.naked = gs.heap.map Frame.naked := feeds_same hm hm' h h' he fs gs hF hG
  have e : ∀ l : List Frame, l.map (fun f => f.last.value) = (l.map Frame.naked).map (fun f => f.last.value) := by
    intro l; rw [List.map_map]; rfl
  rw [h2, h4, show Spec.lastValues fs i = Spec.lastValues gs i by
    unfold Spec.lastValues; rw [e, e (gs.heap.take _), List.map_take (f := Frame.naked),
      List.map_take (f := Frame.naked), hS]]

/-! ## C46 -/

/-- C46 (full). -/
def Spec.C46 : Prop :=
  ∀ (u : Unit') (q m : ℤ), 1 ≤ m → ∀ (fs : FrameSet) (h : List HEv), Feeds u q m fs h →
  ∀ (i : ℕ) (f : Frame) (r : String) (v : IndVal) (mp : ℤ), fs.heap[i]? = some f → f.get r = some v →
    v.ind.kind = .sma mp → 1 ≤ mp →
    (((extendedCloses v f).length : ℤ) ≤ mp) ∧ ∀ p, mp < p → smaGet fs.heap v p = .ok none

/-- C46 for `max_periods` at least 2, whatever the moments of registration and the market hours.  Missing:
`max_periods = 1`, for which it is false (`C46_false`). -/
theorem C46_window_partial (u : Unit') (q m : ℤ) (hm : 1 ≤ m) (fs : FrameSet) (h : List HEv)
    (hF : Feeds u q m fs h) (i : ℕ) (f : Frame) (r : String) (v : IndVal) (mp : ℤ) (hf : fs.heap[i]? = some f)
    (hv : f.get r = some v) (hk : v.ind.kind = .sma mp) (hmp : 2 ≤ mp) :
    (((extendedCloses v f).length : ℤ) ≤ mp) ∧ ∀ p, mp < p → smaGet fs.heap v p = .ok none := by
  obtain ⟨A, hB, -⟩ := feeds_built hm hF
  have hP := hB.val_inv hm (fun v => ∀ mp, v.ind.kind = .sma mp → 2 ≤ mp → (v.closes.length : ℤ) ≤ mp - 1) ?_ ?_
    f (List.mem_of_getElem? hf) r v hv mp hk hmp
  · have hlen : ((extendedCloses v f).length : ℤ) ≤ mp := by
      unfold extendedCloses; rw [List.length_append, List.length_singleton]; push_cast; omega
    refine ⟨hlen, fun p hp => ?_⟩
    have hR := hB.rep hm
    have hlt : i < A.length := by rw [← hR.len]; exact (List.getElem?_eq_some_iff.mp hf).1
    have h1 := hB.indRep hm r i _ f (List.getElem?_eq_getElem hlt) hf
    have hfr : v.frame = i := by
      rcases hs : scan r A[i].evs with _ | ⟨ind, ts⟩
      · rw [hs, hv] at h1; cases h1
      · rw [hs, hv] at h1
        obtain ⟨w, e1, -, e3, -⟩ := h1
        cases e1; exact e3
    unfold smaGet
    rw [show v.parent fs.heap = some f by unfold IndVal.parent; rw [hfr]; exact hf]
    simp only
    rw [if_pos (by omega)]
  · intro heap _ ind id g w hw mp hk hmp
    have hi : w.ind = ind := by rw [IndVal.new_fields hw]; rfl
    rw [hi] at hk
    rw [IndVal.new_sma hk] at hw
    split at hw
    · cases hw
    · cases hw
      simp only
      rw [sliceFrom_neg _ (by omega), lastN_length]; omega
  · intro heap g w w' t mo hP hw mp hk hmp
    have hfd := IndVal.onNewTick_fields hw
    rw [IndVal.track_eq] at hfd
    have h1 : w'.ind = w.ind := by rw [hfd]; split_ifs <;> rfl
    have h2 : w'.closes = w.closes := by rw [hfd]; split_ifs <;> rfl
    rw [h2]
    exact hP mp (h1 ▸ hk) hmp

/-! ## C47 -/

/-- C47, range: every RSI value of every frame lies between 0 and 100, whatever the moments of registration,
the configuration, the market hours and the float rounding. -/
theorem C47_range (u : Unit') (q m : ℤ) (hm : 1 ≤ m) (fs : FrameSet) (h : List HEv)
    (hF : Feeds u q m fs h) (f : Frame) (r : String) (v : IndVal) (x : ℚ) (hf : f ∈ fs.heap)
    (hv : f.get r = some v) (hx : v.rsi = some x) : 0 ≤ x ∧ x ≤ 100 := by
  obtain ⟨A, hB, -⟩ := feeds_built hm hF
  have hupd : ∀ (heap : List Frame) (g : Frame) (n : ℤ) (w w' : IndVal),
      (∀ x, w.rsi = some x → 0 ≤ x ∧ x ≤ 100) → updateRsi heap g n w = .ok w' →
      ∀ x, w'.rsi = some x → 0 ≤ x ∧ x ≤ 100 := by
    intro heap g n w w' hw h x hx
    unfold updateRsi at h
    simp only at h
    split_ifs at h with hn
    · simp only [bind, Except.bind] at h
      split at h
      · cases h
      · rename_i y hy
        cases h
        cases hx
        exact buildRsi_range (by omega) hy
    · cases h; exact hw x hx
  refine hB.val_inv hm (fun v => ∀ x, v.rsi = some x → 0 ≤ x ∧ x ≤ 100) ?_ ?_ f hf r v hv x hx
  · intro heap _ ind id g w hw
    rcases hk : ind.kind with _ | _ | _ | _ | _ | mp | ⟨p, _ | n⟩
    case sma =>
      rw [IndVal.new_sma hk] at hw
      split at hw
      · cases hw
      · cases hw; intro x hx; cases hx
    case rsi.none => unfold IndVal.new at hw; rw [hk] at hw; cases hw
    case rsi.some =>
      by_cases hn : n = 0
      · unfold IndVal.new at hw; rw [hk] at hw; simp [hn] at hw
      · rw [IndVal.new_rsi hk hn] at hw
        split at hw
        · cases hw
        · exact hupd _ _ _ _ _ (fun x hx => by cases hx) hw
    all_goals (unfold IndVal.new at hw; rw [hk] at hw; cases hw; intro x hx; cases hx)
  · intro heap g w w' t mo hP hw
    have htr : ∀ x, (w.track t mo).rsi = some x → 0 ≤ x ∧ x ≤ 100 := by
      intro x hx
      rw [IndVal.track_eq] at hx
      refine hP x ?_
      rw [← hx]; split_ifs <;> rfl
    unfold IndVal.onNewTick at hw
    simp only at hw
    split at hw
    · exact hupd _ _ _ _ _ htr hw
    · cases hw; exact htr

/-- Spec: the changes from each number to the next. -/
def Spec.diffs (l : List ℚ) : List ℚ := List.zipWith (fun a b => fsub b a) l l.tail

theorem diffs_eq (l : List ℚ) : Spec.diffs l = Spec.changes l := by
  unfold Spec.diffs
  induction l with
  | nil => rfl
  | cons a l ih =>
    cases l with
    | nil => rfl
    | cons b l =>
      rw [Spec.changes, ← ih]
      rfl

/-- Spec: the window of the RSI of `n` periods of the frame at position `i`: the last `n` changes of the last
tick values. -/
def Spec.window (fs : FrameSet) (n i : ℕ) : List ℚ := Spec.lastN n (Spec.diffs (Spec.lastValues fs i))

theorem window_floats {fs : FrameSet} {n i : ℕ} : ∀ x ∈ Spec.window fs n i, fl x = x := by
  intro x hx
  unfold Spec.window Spec.lastN at hx
  have hx := List.mem_of_mem_drop hx
  unfold Spec.diffs at hx
  rw [List.mem_iff_getElem] at hx
  obtain ⟨j, hj, rfl⟩ := hx
  rw [List.getElem_zipWith]
  exact fl_idem _

/-- An RSI, registered during the whole history with a window `N ≥ 2`; the value on every frame. -/
theorem rsi_value {u : Unit'} {q m : ℤ} (hm : 2 ≤ m) {fs : FrameSet} {h : List HEv} (hF : Feeds u q m fs h)
    {r : String} {p : ℤ} {n : ℕ} (hn : 2 ≤ n) (hr : Spec.Registered h r ⟨r, .rsi p (some n), false⟩) {i : ℕ} {f : Frame}
    (hf : fs.heap[i]? = some f) : ∃ v, f.get r = some v ∧
      ((i < n ∧ v.rsi = none) ∨ (n ≤ i ∧ ∃ x, buildRsi n (Spec.window fs n i) = .ok x ∧ v.rsi = some x)) := by
  have hm1 : 1 ≤ m := by omega
  obtain ⟨A, hB, hA⟩ := always_of_registered hm1 hF hr rfl
  obtain ⟨v, hv, -⟩ := hB.value hm1 hA hf
  refine ⟨v, hv, ?_⟩
  obtain ⟨-, h2⟩ := hB.rsi hm rfl (by exact_mod_cast hn) hA i f v hf hv
  unfold Spec.window
  rw [diffs_eq, lastValues_eq]
  rcases h2 with ⟨h2, h3⟩ | ⟨h2, h3⟩
  · exact .inl ⟨by exact_mod_cast h2, h3⟩
  · exact .inr ⟨by exact_mod_cast h2, h3⟩

/-- C47 (full). -/
def Spec.C47 : Prop :=
  ∀ (u : Unit') (q m : ℤ), 1 ≤ m → ∀ (fs : FrameSet) (h : List HEv), Feeds u q m fs h →
  ∀ (r : String) (p : ℤ) (n : ℕ), 1 ≤ n → (n : ℤ) ≤ m → Spec.Registered h r ⟨r, .rsi p (some n), false⟩ →
  ∀ (i : ℕ) (f : Frame) (v : IndVal) (x : ℚ), fs.heap[i]? = some f → f.get r = some v → v.rsi = some x →
    (0 ≤ x ∧ x ≤ 100) ∧
    ((∀ c ∈ Spec.window fs n i, 0 ≤ c) → x = 100) ∧
    ((∀ c ∈ Spec.window fs n i, c ≤ 0) → (∃ c ∈ Spec.window fs n i, c < 0) → x = 0)

/-- C47, extremes, for `N ≥ 2` and at least two frames in memory.  Missing: `N = 1`, for which it is false
(`C47_false`). -/
theorem C47_extremes_partial (u : Unit') (q m : ℤ) (hm : 2 ≤ m) (fs : FrameSet) (h : List HEv)
    (hF : Feeds u q m fs h) (r : String) (p : ℤ) (n : ℕ) (hn : 2 ≤ n)
    (hr : Spec.Registered h r ⟨r, .rsi p (some n), false⟩) (i : ℕ) (f : Frame) (v : IndVal) (x : ℚ)
    (hf : fs.heap[i]? = some f) (hv : f.get r = some v) (hx : v.rsi = some x) :
    ((∀ c ∈ Spec.window fs n i, 0 ≤ c) → x = 100) ∧
    ((∀ c ∈ Spec.window fs n i, c ≤ 0) → (∃ c ∈ Spec.window fs n i, c < 0) → x = 0) := by
  obtain ⟨w, hw, h2⟩ := rsi_value hm hF hn hr hf
  rw [hv] at hw
  cases hw
  rcases h2 with ⟨-, h2⟩ | ⟨-, y, h3, h4⟩
  · rw [hx] at h2; cases h2
  · rw [hx] at h4
    cases h4
    constructor
    · intro h
      rw [buildRsi_gains h] at h3
      cases h3; rfl
    · intro h he
      rw [buildRsi_losses window_floats h he] at h3
      cases h3; rfl

/-- C47, no exceptions: with indicators registered throughout, RSI ones with a non-zero window, a tick is always
accepted by a set of TICK frames: the mean loss of a window with a loss is never rounded to zero, so that no division
by zero occurs, whatever the prices.  `Accurate` and `Gap` hold in binary64 (`C47_never_raises_tick_binary64`) and
in exact arithmetic (`C47_never_raises_tick_exact`). -/
theorem C47_never_raises_tick (hA : Accurate) (hG : Gap) (q m : ℤ) (hm : 1 ≤ m) (fs : FrameSet) (h : List HEv)
    (hF : Feeds .tick q m fs h) (D : Dict Indicator) (hD : ∀ e ∈ h, e.reg = D) (hnow : fs.indicators = D)
    (hsafe : ∀ d ∈ D, d.2.kind.Safe) (hwin : ∀ d ∈ D, d.2.kind.Window (· ≤ 2 ^ 100)) (c : Ctx) (t : Tick) :
    ∃ fs', fs.onNewTick c t = .ok fs' := by
  obtain ⟨A, hB, hG'⟩ := feeds_groups hm hF
  refine calm_tick (rsiTotal_accurate hA hG) hm hB ⟨hnow, ?_, hsafe⟩ hwin c t
  intro a ha e he
  obtain ⟨x, hx, h1, -⟩ := hG'.reg a.evs (List.mem_map_of_mem ha) e he
  rw [h1]; exact hD x hx

/-- C47, no exceptions, timed frames: the only way for a tick to fail is the computation of the start of its
timeframe (out of the calendar). -/
theorem C47_never_raises_timed (hA : Accurate) (hG : Gap) (u : Unit') (hu : u ≠ .tick) (q m : ℤ) (hq : 0 < q)
    (hm : 1 ≤ m) (fs : FrameSet) (h : List HEv) (hF : Feeds u q m fs h) (D : Dict Indicator)
    (hD : ∀ e ∈ h, e.reg = D) (hnow : fs.indicators = D) (hsafe : ∀ d ∈ D, d.2.kind.Safe)
    (hwin : ∀ d ∈ D, d.2.kind.Window (· ≤ 2 ^ 100)) (c : Ctx) (hz : ∀ x, x ≤ c.zone.resolve x)
    (t : Tick) (ps : ℤ) (hps : frameStart u q t.dt.wall = .ok ps) : ∃ fs', fs.onNewTick c t = .ok fs' := by
  obtain ⟨A, hB, hG'⟩ := feeds_groups hm hF
  refine calm_timed (rsiTotal_accurate hA hG) hu hq hm hB ⟨hnow, ?_, hsafe⟩ hwin (feeds_ended hm hu hF) c hz t hps
  intro a ha e he
  obtain ⟨x, hx, h1, -⟩ := hG'.reg a.evs (List.mem_map_of_mem ha) e he
  rw [h1]; exact hD x hx

/-- C47, no exceptions, in binary64: TICK frames. -/
theorem C47_never_raises_tick_binary64 : letI := Arith.binary64
    ∀ (q m : ℤ), 1 ≤ m → ∀ (fs : FrameSet) (h : List HEv), Feeds .tick q m fs h →
    ∀ (D : Dict Indicator), (∀ e ∈ h, e.reg = D) → fs.indicators = D →
    (∀ d ∈ D, d.2.kind.Safe) → (∀ d ∈ D, d.2.kind.Window (· ≤ 2 ^ 100)) →
    ∀ (c : Ctx) (t : Tick), ∃ fs', fs.onNewTick c t = .ok fs' := by
  letI := Arith.binary64
  exact C47_never_raises_tick accurate_binary64 gap_binary64

/-- C47, no exceptions, in binary64: timed frames. -/
theorem C47_never_raises_timed_binary64 : letI := Arith.binary64
    ∀ (u : Unit'), u ≠ .tick → ∀ (q m : ℤ), 0 < q → 1 ≤ m → ∀ (fs : FrameSet) (h : List HEv), Feeds u q m fs h →
    ∀ (D : Dict Indicator), (∀ e ∈ h, e.reg = D) → fs.indicators = D →
    (∀ d ∈ D, d.2.kind.Safe) → (∀ d ∈ D, d.2.kind.Window (· ≤ 2 ^ 100)) →
    ∀ (c : Ctx), (∀ x, x ≤ c.zone.resolve x) → ∀ (t : Tick) (ps : ℤ), frameStart u q t.dt.wall = .ok ps →
    ∃ fs', fs.onNewTick c t = .ok fs' := by
  letI := Arith.binary64
  exact C47_never_raises_timed accurate_binary64 gap_binary64

/-- C47, no exceptions, in exact arithmetic: windows of any size. -/
theorem C47_never_raises_tick_exact (hE : Exact) (q m : ℤ) (hm : 1 ≤ m) (fs : FrameSet) (h : List HEv)
    (hF : Feeds .tick q m fs h) (D : Dict Indicator) (hD : ∀ e ∈ h, e.reg = D) (hnow : fs.indicators = D)
    (hsafe : ∀ d ∈ D, d.2.kind.Safe) (c : Ctx) (t : Tick) : ∃ fs', fs.onNewTick c t = .ok fs' := by
  obtain ⟨A, hB, hG⟩ := feeds_groups hm hF
  refine calm_tick (rsiTotal_exact hE) hm hB ⟨hnow, ?_, hsafe⟩ (fun d _ => ?_) c t
  · intro a ha e he
    obtain ⟨x, hx, h1, -⟩ := hG.reg a.evs (List.mem_map_of_mem ha) e he
    rw [h1]; exact hD x hx
  · unfold Kind.Window; split <;> trivial

/-- ... and timed frames. -/
theorem C47_never_raises_timed_exact (hE : Exact) (u : Unit') (hu : u ≠ .tick) (q m : ℤ) (hq : 0 < q) (hm : 1 ≤ m)
    (fs : FrameSet) (h : List HEv) (hF : Feeds u q m fs h) (D : Dict Indicator) (hD : ∀ e ∈ h, e.reg = D)
    (hnow : fs.indicators = D) (hsafe : ∀ d ∈ D, d.2.kind.Safe) (c : Ctx) (hz : ∀ x, x ≤ c.zone.resolve x)
    (t : Tick) (ps : ℤ) (hps : frameStart u q t.dt.wall = .ok ps) : ∃ fs', fs.onNewTick c t = .ok fs' := by
  obtain ⟨A, hB, hG⟩ := feeds_groups hm hF
  refine calm_timed (rsiTotal_exact hE) hu hq hm hB ⟨hnow, ?_, hsafe⟩ (fun d _ => ?_) (feeds_ended hm hu hF) c hz t hps
  · intro a ha e he
    obtain ⟨x, hx, h1, -⟩ := hG.reg a.evs (List.mem_map_of_mem ha) e he
    rw [h1]; exact hD x hx
  · unfold Kind.Window; split <;> trivial

/-- ... whereas `RSI(periods=0)` is accepted by every frame set and raises at the first tick. -/
theorem C47_zero_periods_raises (q m : ℤ) (hm : 1 ≤ m) (r : String) (k : Option ℤ) (c : Ctx) (t : Tick) :
    let s := (⟨.tick, q, m, [], [], []⟩ : FrameSet).addIndicator ⟨r, .rsi 0 k, false⟩
    s.2 = none ∧ s.1.onNewTick c t = .error .indicator := by
  constructor
  · unfold FrameSet.addIndicator
    simp only
    rw [if_neg (by omega)]
  · simp only [FrameSet.addIndicator, FrameSet.onNewTick, FrameSet.overTick, FrameSet.current, List.getLast?_nil,
      if_true, FrameSet.createFrame, upsert, zero_mul]
    rfl

/-! ## C48 -/

/-- C48 (full), with exact arithmetic. -/
def Spec.C48 : Prop :=
  ∀ (u : Unit') (q m : ℤ), 1 ≤ m → ∀ (fs : FrameSet) (h : List HEv), Feeds u q m fs h →
  ∀ (r : String) (p : ℤ) (n : ℕ), 1 ≤ n → (n : ℤ) ≤ m → Spec.Registered h r ⟨r, .rsi p (some n), false⟩ →
  ∀ (i : ℕ) (f : Frame), fs.heap[i]? = some f → ∃ v, f.get r = some v ∧
    v.rsi = if n ≤ i then some (Spec.rsi (Spec.window fs n i)) else none

/-- C48, presence, for `N ≥ 2`: any arithmetic, any memory limit of at least two frames. -/
theorem C48_present_partial (u : Unit') (q m : ℤ) (hm : 2 ≤ m) (fs : FrameSet) (h : List HEv)
    (hF : Feeds u q m fs h) (r : String) (p : ℤ) (n : ℕ) (hn : 2 ≤ n)
    (hr : Spec.Registered h r ⟨r, .rsi p (some n), false⟩) (i : ℕ) (f : Frame) (hf : fs.heap[i]? = some f) :
    ∃ v, f.get r = some v ∧ (v.rsi.isSome ↔ n ≤ i) := by
  obtain ⟨v, hv, h2⟩ := rsi_value hm hF hn hr hf
  refine ⟨v, hv, ?_⟩
  rcases h2 with ⟨h2, h3⟩ | ⟨h2, x, -, h3⟩
  · rw [h3]; constructor
    · intro h; cases h
    · intro h; omega
  · rw [h3]; exact ⟨fun _ => h2, fun _ => rfl⟩

/-- C48, value, for `N ≥ 2`, exact arithmetic.  Missing: `N = 1` (false: `C48_false`), and a bound on the error of
float arithmetic. -/
theorem C48_value_partial (hE : Exact) (u : Unit') (q m : ℤ) (hm : 2 ≤ m) (fs : FrameSet) (h : List HEv)
    (hF : Feeds u q m fs h) (r : String) (p : ℤ) (n : ℕ) (hn : 2 ≤ n)
    (hr : Spec.Registered h r ⟨r, .rsi p (some n), false⟩) (i : ℕ) (f : Frame) (hf : fs.heap[i]? = some f) :
    ∃ v, f.get r = some v ∧ v.rsi = if n ≤ i then some (Spec.rsi (Spec.window fs n i)) else none := by
  obtain ⟨v, hv, h2⟩ := rsi_value hm hF hn hr hf
  refine ⟨v, hv, ?_⟩
  rcases h2 with ⟨h2, h3⟩ | ⟨h2, x, h4, h3⟩
  · rw [if_neg (by omega), h3]
  · rw [if_pos h2, h3]
    rw [buildRsi_exact hE (by exact_mod_cast (by omega : 0 < n))] at h4
    cases h4; rfl

/-! ## C49 -/

/-- C49 (full). -/
def Spec.C49 : Prop :=
  ∀ (fs : FrameSet) (r : String) (p : ℤ) (k : Option ℤ) (moo : Bool),
    ((fs.addIndicator ⟨r, .rsi p k, moo⟩).2 = some .indicator ↔ fs.maxFrames < p * fs.qty) ∧
    ((fs.addIndicator ⟨r, .rsi p k, moo⟩).2 ≠ none → (fs.addIndicator ⟨r, .rsi p k, moo⟩).1 = fs)

/-- C49, check: no exception but `BaseIndicatorException`, and exactly when the window does not fit.
Missing: the frame set is not left unchanged (`C49_false`, `C49_stays_registered`). -/
theorem C49_check_partial (fs : FrameSet) (r : String) (p : ℤ) (k : Option ℤ) (moo : Bool) :
    ((fs.addIndicator ⟨r, .rsi p k, moo⟩).2 = some .indicator ↔ fs.maxFrames < p * fs.qty) ∧
    ((fs.addIndicator ⟨r, .rsi p k, moo⟩).2 = none ↔ p * fs.qty ≤ fs.maxFrames) := by
  unfold FrameSet.addIndicator
  simp only
  split_ifs with h
  · exact ⟨⟨fun _ => h, fun _ => rfl⟩, ⟨nofun, fun h' => absurd h (by omega)⟩⟩
  · exact ⟨⟨nofun, fun h' => absurd h' h⟩, ⟨fun _ => by omega, fun _ => rfl⟩⟩

/-- A refused RSI is registered all the same, and computed on the frames that follow. -/
theorem C49_stays_registered (fs : FrameSet) (r : String) (p : ℤ) (k : Option ℤ) (moo : Bool)
    (h : fs.maxFrames < p * fs.qty) :
    (fs.addIndicator ⟨r, .rsi p k, moo⟩).2 = some .indicator ∧
    (fs.addIndicator ⟨r, .rsi p k, moo⟩).1.indicators.get? r = some ⟨r, .rsi p (some (p * fs.qty)), moo⟩ := by
  unfold FrameSet.addIndicator
  simp only
  rw [if_pos h, Dict.get?_set, if_pos rfl]
  exact ⟨rfl, rfl⟩

/-- Registering other indicators never raises. -/
theorem C49_others_never_raise (fs : FrameSet) (ind : Indicator) (hk : ∀ p k, ind.kind ≠ .rsi p k) :
    (fs.addIndicator ind).2 = none ∧ (fs.addIndicator ind).1.indicators.get? ind.ref = some ind := by
  unfold FrameSet.addIndicator
  split
  · rename_i p k h; exact absurd h (hk p k)
  · simp only
    rw [Dict.get?_set, if_pos rfl]
    exact ⟨trivial, rfl⟩

/-- C49 is false of the code: the exception leaves the indicator registered. -/
theorem C49_false : ¬ Spec.C49 := by
  intro h
  have := (h ⟨.minute, 1, 1, [], [], []⟩ "r" 2 none false).2 (by decide)
  exact absurd this (by decide)

end

/-! ## Negations and concrete cases -/

section examples

open Demo (with1 at' value obs value_some feeds1)

private def sma (mp : ℤ) (moo : Bool) : Indicator := ⟨"s", .sma mp, moo⟩

private def rsi (p : ℤ) : Indicator := ⟨"r", .rsi p none, false⟩

/-- One tick per minute, the market being closed in the second minute. -/
private def threeMinutes : List (Ctx × Tick) := [at' 0 true 10, at' 60 false 20, at' 120 true 40]

/-- C45 is false of the code: a `market_open_only` average skips the frames without value ... -/
theorem C45_false : letI := Arith.exact; ¬ Spec.C45 := by
  letI := Arith.exact
  intro h
  obtain ⟨fs, hs, h1, h2, h3, -, h5⟩ := feeds1 (u := .minute) (q := 1) (m := 10) (by decide)
    (ind := sma 3 true) (l := threeMinutes) (by decide +kernel)
  obtain ⟨f, v, hf, hv, hx⟩ := value_some (g := fun v => smaGet fs.heap v 2)
    (obs h5 (g := fun fs => (value fs 2 "s").map (fun v => smaGet fs.heap v 2)) (x := some (.ok (some 25)))
      (by decide +kernel))
  have hc := h .minute 1 10 (by decide) fs hs h1 "s" 3 true 2 (by decide) (by decide)
    (fun e he => by rw [h3 e he]; decide) 2 f v hf hv
  simp only [Nat.cast_ofNat, hx] at hc
  have := obs h5 (g := fun fs => Spec.mean 2 (Spec.lastValues fs 2)) (x := some 30) (by decide +kernel)
  rw [this] at hc
  exact absurd hc (by decide +kernel)

/-- ... and depends on the memory limit: 25 with two frames in memory, `None` with one. -/
theorem C45_market_open_only_memory : letI := Arith.exact
    ∃ fs gs : FrameSet, feedAll (with1 .minute 1 2 (sma 3 true)) threeMinutes = .ok fs ∧
      feedAll (with1 .minute 1 1 (sma 3 true)) threeMinutes = .ok gs ∧
      (value fs 2 "s").map (fun v => smaGet fs.heap v 2) = some (.ok (some 25)) ∧
      (value gs 2 "s").map (fun v => smaGet gs.heap v 2) = some (.ok none) := by
  letI := Arith.exact
  obtain ⟨fs, -, -, -, -, -, h5⟩ := feeds1 (u := .minute) (q := 1) (m := 2) (by decide)
    (ind := sma 3 true) (l := threeMinutes) (by decide +kernel)
  obtain ⟨gs, -, -, -, -, -, h6⟩ := feeds1 (u := .minute) (q := 1) (m := 1) (by decide)
    (ind := sma 3 true) (l := threeMinutes) (by decide +kernel)
  exact ⟨fs, gs, h5, h6,
    obs h5 (g := fun fs => (value fs 2 "s").map (fun v => smaGet fs.heap v 2)) (by decide +kernel),
    obs h6 (g := fun fs => (value fs 2 "s").map (fun v => smaGet fs.heap v 2)) (by decide +kernel)⟩

/-- C45: the hypotheses of the theorems, memory 1, three frames. -/
example : letI := Arith.exact
    ∃ fs h, Feeds .minute 1 1 fs h ∧ Spec.Registered h "s" ⟨"s", .sma 3, false⟩ ∧
      (value fs 2 "s").map (fun v => smaGet fs.heap v 2) = some (.ok (some 30)) ∧
      (value fs 2 "s").map (fun v => smaGet fs.heap v 3) = some (.ok (some (2333 / 100))) ∧
      (value fs 1 "s").map (fun v => smaGet fs.heap v 3) = some (.ok none) := by
  letI := Arith.exact
  obtain ⟨fs, hs, h1, h2, h3, -, h5⟩ := feeds1 (u := .minute) (q := 1) (m := 1) (by decide)
    (ind := sma 3 false) (l := threeMinutes) (by decide +kernel)
  exact ⟨fs, hs, h1, fun e he => by rw [h3 e he]; decide,
    obs h5 (g := fun fs => (value fs 2 "s").map (fun v => smaGet fs.heap v 2)) (by decide +kernel),
    obs h5 (g := fun fs => (value fs 2 "s").map (fun v => smaGet fs.heap v 3)) (by decide +kernel),
    obs h5 (g := fun fs => (value fs 1 "s").map (fun v => smaGet fs.heap v 3)) (by decide +kernel)⟩

/-- C46 is false of the code: `SimpleMovingAverage(max_periods=1)` keeps every close (`closes[-0:]`). -/
theorem C46_false : letI := Arith.exact; ¬ Spec.C46 := by
  letI := Arith.exact
  intro h
  obtain ⟨fs, hs, h1, h2, h3, -, h5⟩ := feeds1 (u := .minute) (q := 1) (m := 1) (by decide)
    (ind := sma 1 false) (l := threeMinutes) (by decide +kernel)
  obtain ⟨f, v, hf, hv, hx⟩ := value_some (g := fun v => (smaGet fs.heap v 2, v.ind.kind))
    (obs h5 (g := fun fs => (value fs 2 "s").map (fun v => (smaGet fs.heap v 2, v.ind.kind)))
      (x := some (.ok (some 30), .sma 1)) (by decide +kernel))
  simp only [Prod.mk.injEq] at hx
  have hc := (h .minute 1 1 (by decide) fs hs h1 2 f "s" v 1 hf hv hx.2 (by decide)).2 2 (by decide)
  rw [hx.1] at hc
  exact absurd hc (by decide)

/-- C46: the hypotheses, three frames and `max_periods = 2`. -/
example : letI := Arith.exact
    ∃ fs h f v, Feeds .minute 1 1 fs h ∧ fs.heap[2]? = some f ∧ f.get "s" = some v ∧ v.ind.kind = .sma 2 ∧
      extendedCloses v f = [20, 40] := by
  letI := Arith.exact
  obtain ⟨fs, hs, h1, h2, h3, -, h5⟩ := feeds1 (u := .minute) (q := 1) (m := 1) (by decide)
    (ind := sma 2 false) (l := threeMinutes) (by decide +kernel)
  have hx := obs h5 (g := fun fs => (fs.heap[2]?).bind (fun f => (f.get "s").map (fun v => (extendedCloses v f, v.ind.kind))))
      (x := some ([20, 40], .sma 2)) (by decide +kernel)
  obtain ⟨f, hf, hx⟩ := Option.bind_eq_some_iff.mp hx
  obtain ⟨v, hv, hx⟩ := Option.map_eq_some_iff.mp hx
  simp only [Prod.mk.injEq] at hx
  exact ⟨fs, hs, f, v, h1, hf, hv, hx.2, hx.1⟩

/-- C47 is false of the code for a window of one change and one frame in memory: the RSI is not updated after
the first tick of a frame, because the link to the previous frame is gone. -/
theorem C47_false : letI := Arith.exact; ¬ Spec.C47 := by
  letI := Arith.exact
  intro h
  obtain ⟨fs, hs, h1, h2, h3, -, h5⟩ := feeds1 (u := .minute) (q := 1) (m := 1) (by decide)
    (ind := rsi 1) (l := [at' 0 true 10, at' 60 true 9, at' 70 true 12]) (by decide +kernel)
  obtain ⟨f, v, hf, hv, hx⟩ := value_some (g := fun v => v.rsi)
    (obs h5 (g := fun fs => (value fs 1 "r").map (fun v => v.rsi)) (x := some (some 0)) (by decide +kernel))
  have hw := obs h5 (g := fun fs => Spec.window fs 1 1) (x := [2]) (by decide +kernel)
  have hc := (h .minute 1 1 (by decide) fs hs h1 "r" 1 1 (by decide) (by decide)
    (fun e he => by rw [h3 e he]; decide) 1 f v 0 hf hv hx).2.1
  rw [hw] at hc
  exact absurd (hc (by decide +kernel)) (by decide +kernel)

/-- C48 is false of the code for `N = 1`: from the third frame on there is no value any more
(`last_changes[-0:]` keeps every change). -/
theorem C48_false : letI := Arith.exact; ¬ Spec.C48 := by
  letI := Arith.exact
  intro h
  obtain ⟨fs, hs, h1, h2, h3, -, h5⟩ := feeds1 (u := .minute) (q := 1) (m := 10) (by decide)
    (ind := rsi 1) (l := threeMinutes) (by decide +kernel)
  obtain ⟨f, v, hf, hv, hx⟩ := value_some (g := fun v => v.rsi)
    (obs h5 (g := fun fs => (value fs 2 "r").map (fun v => v.rsi)) (x := some none) (by decide +kernel))
  obtain ⟨w, hw, hc⟩ := h .minute 1 10 (by decide) fs hs h1 "r" 1 1 (by decide) (by decide)
    (fun e he => by rw [h3 e he]; decide) 2 f hf
  rw [hv] at hw
  cases hw
  rw [hx, if_pos (by decide)] at hc
  cases hc

/-- C47, C48: the hypotheses of the theorems with `N = 2`, a gain of 10 and a loss of 5. -/
example : letI := Arith.exact
    ∃ fs h, Feeds .minute 1 2 fs h ∧ Spec.Registered h "r" ⟨"r", .rsi 2 (some 2), false⟩ ∧
      Spec.window fs 2 2 = [10, -5] ∧ (value fs 2 "r").map (fun v => v.rsi) = some (some (6667 / 100)) ∧
      Spec.rsi [10, -5] = 6667 / 100 ∧ (value fs 1 "r").map (fun v => v.rsi) = some none := by
  letI := Arith.exact
  obtain ⟨fs, hs, h1, h2, h3, -, h5⟩ := feeds1 (u := .minute) (q := 1) (m := 2) (by decide)
    (ind := rsi 2) (l := [at' 0 true 10, at' 60 true 20, at' 120 true 15]) (by decide +kernel)
  exact ⟨fs, hs, h1, fun e he => by rw [h3 e he]; decide,
    obs h5 (g := fun fs => Spec.window fs 2 2) (by decide +kernel),
    obs h5 (g := fun fs => (value fs 2 "r").map (fun v => v.rsi)) (by decide +kernel), by decide +kernel,
    obs h5 (g := fun fs => (value fs 1 "r").map (fun v => v.rsi)) (by decide +kernel)⟩

/-- C47, no exceptions: the hypotheses with an RSI, in binary64. -/
example : letI := Arith.binary64
    ∃ fs h, Feeds .minute 1 2 fs h ∧ (∀ e ∈ h, e.reg = fs.indicators) ∧
      (∀ d ∈ fs.indicators, d.2.kind.Safe ∧ d.2.kind.Window (· ≤ 2 ^ 100)) ∧ fs.indicators ≠ [] ∧ h.length = 3 := by
  letI := Arith.binary64
  obtain ⟨fs, hs, h1, h2, h3, h4, h5⟩ := feeds1 (u := .minute) (q := 1) (m := 2) (by decide)
    (ind := rsi 2) (l := threeMinutes) (by decide +kernel)
  refine ⟨fs, hs, h1, fun e he => by rw [h3 e he, h4], ?_, by rw [h4]; decide, ?_⟩
  · rw [h4]
    intro d hd
    change d ∈ [("r", (⟨"r", .rsi 2 (some 2), false⟩ : Indicator))] at hd
    rw [List.mem_singleton.mp hd]
    exact ⟨(by decide : (2 : ℤ) ≠ 0), (by decide : (2 : ℤ) ≤ 2 ^ 100)⟩
  · have := congrArg List.length h2; simpa [threeMinutes] using this

/-- C49: both outcomes. -/
example : (Demo.minutes.addIndicator (rsi 10)).2 = none ∧ (Demo.minutes.addIndicator (rsi 11)).2 = some .indicator := by
  decide

end examples

end Estrade
