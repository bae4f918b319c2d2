import Verif.Props.Averages
import Verif.Lemmas.RsiError

/-!
# C45, C48, C71: averages and RSI in floats

The values of the indicators against the exact mean, gains and losses of the tick values, in any format with 53-bit
precision (`Accurate`) whose tick values are not arbitrarily close (`Gap`); both hold in binary64.
(estrade/graph/indicators/simple_moving_average.py, estrade/graph/indicators/rsi.py)
-/

set_option linter.style.haveILetI false
set_option linter.unusedSectionVars false
set_option autoImplicit false

namespace Estrade

section
variable [Arith]

/-! ## Means -/

theorem sum_between {l : List ℚ} {a b : ℚ} (h : ∀ x ∈ l, a ≤ x ∧ x ≤ b) :
    l.length * a ≤ l.sum ∧ l.sum ≤ l.length * b := by
  induction l with
  | nil => simp
  | cons x l ih =>
    obtain ⟨h1, h2⟩ := ih fun y hy => h y (List.mem_cons_of_mem _ hy)
    obtain ⟨h3, h4⟩ := h x List.mem_cons_self
    rw [List.length_cons, List.sum_cons]
    push_cast
    constructor <;> linarith

/-- A float mean of `p` numbers of at most `M`. -/
theorem mean_near (hA : Accurate) {l : List ℚ} {M : ℚ} (hM : 1 ≤ M) (hl : ∀ x ∈ l, |x| ≤ M) (h1 : 1 ≤ l.length)
    (h2 : l.length ≤ 2 ^ 20) : |fdiv (fsum l) l.length - l.sum / l.length| ≤ M / 2 ^ 30 ∧ |l.sum / l.length| ≤ M := by
  have hp : (1 : ℚ) ≤ l.length := by exact_mod_cast h1
  have hp0 : (0 : ℚ) < l.length := by linarith
  have hp2 : (l.length : ℚ) ≤ 2 ^ 20 := by exact_mod_cast h2
  have hS : 1 ≤ l.length * M := by nlinarith
  have habs : (l.map (fun i => |i|)).sum ≤ l.length * M := by
    have := (sum_between (l := l.map (fun i => |i|)) (a := 0) (b := M) (by
      intro x hx
      obtain ⟨y, hy, rfl⟩ := List.mem_map.mp hx
      exact ⟨abs_nonneg _, hl y hy⟩)).2
    rwa [List.length_map] at this
  have h3 := Apx.foldl hA hS (fun x : ℚ => x) (fun x => x) (fun _ => 0) l 0 0 0 (Apx.zero hS)
    (fun i hi => ⟨by simp, (hl i hi).trans (by nlinarith)⟩) (by rw [abs_zero, zero_add]; exact habs)
    (by simp only [List.map_const', List.sum_replicate, smul_eq_mul]; omega)
  simp only [List.map_const', List.sum_replicate, smul_eq_mul, List.map_id', zero_add, mul_one] at h3
  have hn := h3.near
  have hsum : |l.sum / l.length| ≤ M := by
    obtain ⟨a, b⟩ := sum_between (l := l) (a := -M) (b := M) fun x hx => abs_le.mp (hl x hx)
    rw [abs_le, le_div_iff₀ hp0, div_le_iff₀ hp0]
    constructor <;> linarith
  refine ⟨?_, hsum⟩
  have h4 : |fsum l / l.length - l.sum / l.length| ≤ M / 2 ^ 31 := by
    rw [← sub_div, abs_div, abs_of_pos hp0, div_le_iff₀ hp0]
    refine hn.trans ?_
    have e : (l.length : ℚ) * (l.length * M / 2 ^ 51) = l.length / 2 ^ 51 * (M * l.length) := by ring
    have e2 : M / 2 ^ 31 * (l.length : ℚ) = 2 ^ 20 / 2 ^ 51 * (M * l.length) := by ring
    rw [e, e2]
    gcongr
  have h5 : |fsum l / l.length| ≤ 2 * M := by
    have := abs_add_le (fsum l / l.length - l.sum / l.length) (l.sum / l.length)
    rw [sub_add_cancel] at this
    have : M / 2 ^ 31 ≤ M := by
      rw [div_le_iff₀ (by norm_num)]
      nlinarith
    linarith
  refine (fl_near hA h4 h5).trans ?_
  have h6 : (1 : ℚ) / 2 ^ 200 ≤ M / 2 ^ 200 := by gcongr
  have h7 : M / 2 ^ 31 + (2 * M / 2 ^ 53 + M / 2 ^ 200) = (1 / 2 ^ 31 + (2 / 2 ^ 53 + 1 / 2 ^ 200)) * M := by ring
  have h8 : M / 2 ^ 30 = 1 / 2 ^ 30 * M := by ring
  have h9 : ((1 : ℚ) / 2 ^ 31 + (2 / 2 ^ 53 + 1 / 2 ^ 200)) * M ≤ 1 / 2 ^ 30 * M :=
    mul_le_mul_of_nonneg_right (by norm_num) (by linarith)
  linarith

/-- Spec: the last tick values of the `p` last frames up to position `i`. -/
def Spec.closes (fs : FrameSet) (p i : ℕ) : List ℚ :=
  ((fs.heap.take (i + 1)).drop (i + 1 - p)).map (fun f => f.last.value)

theorem lastN_lastValues {fs : FrameSet} {i p : ℕ} {f : Frame} (hf : fs.heap[i]? = some f) :
    Spec.lastN p (Spec.lastValues fs i) = Spec.closes fs p i := by
  unfold Spec.lastN
  rw [lastValues_length hf]
  unfold Spec.lastValues Spec.closes
  rw [List.map_drop]

theorem closes_length {fs : FrameSet} {i p : ℕ} {f : Frame} (hf : fs.heap[i]? = some f) (hi : p ≤ i + 1) :
    (Spec.closes fs p i).length = p := by
  have := (List.getElem?_eq_some_iff.mp hf).1
  unfold Spec.closes
  rw [List.length_map, List.length_drop, List.length_take]
  omega

theorem closes_values {fs : FrameSet} {i p : ℕ} : ∀ x ∈ Spec.closes fs p i, ∃ t : Tick, x = t.value := by
  intro x hx
  unfold Spec.closes at hx
  obtain ⟨f, -, rfl⟩ := List.mem_map.mp hx
  exact ⟨_, rfl⟩

/-- C45 in floats: the average of `p ≤ 2^20` closes of at most `M` is within half a cent plus `M / 2^29` of the exact
mean of the closes.  Missing: `market_open_only` averages (`C45_false`). -/
theorem C45_sma_in_floats_partial (hA : Accurate) (u : Unit') (q m : ℤ) (hm : 1 ≤ m) (fs : FrameSet) (h : List HEv)
    (hF : Feeds u q m fs h) (r : String) (mp : ℤ) (p : ℕ) (hp : 1 ≤ p) (hp2 : p ≤ 2 ^ 20) (hpm : (p : ℤ) ≤ mp)
    (hr : Spec.Registered h r ⟨r, .sma mp, false⟩) (i : ℕ) (f : Frame) (hf : fs.heap[i]? = some f) (hi : p ≤ i + 1)
    (M : ℚ) (hM : 1 ≤ M) (hc : ∀ x ∈ Spec.closes fs p i, |x| ≤ M) :
    ∃ v x, f.get r = some v ∧ smaGet fs.heap v p = .ok (some x) ∧
      |x - (Spec.closes fs p i).sum / p| ≤ 1 / 200 + M / 2 ^ 29 := by
  obtain ⟨v, h1, h2⟩ := C45_sma_partial u q m hm fs h hF r mp p hp hpm hr i f hf
  unfold Spec.mean at h2
  rw [lastValues_length hf, if_neg (by omega), lastN_lastValues hf] at h2
  refine ⟨v, _, h1, h2, ?_⟩
  have hlen := closes_length hf hi
  obtain ⟨h3, h4⟩ := mean_near hA hM hc (by omega) (by omega)
  rw [hlen] at h3 h4
  set z := fdiv (fsum (Spec.closes fs p i)) p
  set s := (Spec.closes fs p i).sum / (p : ℚ)
  have hcent : |cent z - s| ≤ 1 / 200 + M / 2 ^ 30 := by
    have := abs_add_le (cent z - z) (z - s)
    rw [sub_add_sub_cancel] at this
    have h5 := cent_abs z
    rw [abs_sub_comm] at h5
    linarith
  have hM30 : M / 2 ^ 30 ≤ M := by
    rw [div_le_iff₀ (by norm_num)]
    nlinarith
  have h5 : |cent z| ≤ 3 * M := by
    have := abs_add_le (cent z - s) s
    rw [sub_add_cancel] at this
    linarith
  refine (fl_near hA hcent h5).trans ?_
  have h6 : (1 : ℚ) / 2 ^ 200 ≤ M / 2 ^ 200 := by gcongr
  have h7 : M / 2 ^ 30 + (3 * M / 2 ^ 53 + M / 2 ^ 200) = (1 / 2 ^ 30 + (3 / 2 ^ 53 + 1 / 2 ^ 200)) * M := by ring
  have h8 : M / 2 ^ 29 = 1 / 2 ^ 29 * M := by ring
  have h9 : ((1 : ℚ) / 2 ^ 30 + (3 / 2 ^ 53 + 1 / 2 ^ 200)) * M ≤ 1 / 2 ^ 29 * M :=
    mul_le_mul_of_nonneg_right (by norm_num) (by linarith)
  linarith

/-! ## C71: averages lie between the closes -/

theorem exists_min {l : List ℚ} (h : l ≠ []) : ∃ a ∈ l, ∀ x ∈ l, a ≤ x := by
  induction l with
  | nil => exact absurd rfl h
  | cons b l ih =>
    by_cases hl : l = []
    · subst hl
      exact ⟨b, by simp, by simp⟩
    · obtain ⟨a, ha, h1⟩ := ih hl
      rcases le_total a b with hab | hab
      · refine ⟨a, List.mem_cons_of_mem _ ha, ?_⟩
        intro x hx
        rcases List.mem_cons.mp hx with rfl | hx
        · exact hab
        · exact h1 x hx
      · refine ⟨b, List.mem_cons_self, ?_⟩
        intro x hx
        rcases List.mem_cons.mp hx with rfl | hx
        · exact le_rfl
        · exact hab.trans (h1 x hx)

theorem exists_max {l : List ℚ} (h : l ≠ []) : ∃ b ∈ l, ∀ x ∈ l, x ≤ b := by
  obtain ⟨a, ha, h1⟩ := exists_min (l := l.map (- ·)) (by simpa using h)
  obtain ⟨b, hb, rfl⟩ := List.mem_map.mp ha
  exact ⟨b, hb, fun x hx => by have := h1 (-x) (List.mem_map_of_mem hx); linarith⟩

/-- The rounded float mean of tick values of at most 2^20 lies between two of them. -/
theorem rnd_mean_between (hA : Accurate) {l : List ℚ} (hv : ∀ x ∈ l, ∃ t : Tick, x = t.value)
    (hl : ∀ x ∈ l, |x| ≤ 2 ^ 20) (h1 : 1 ≤ l.length) (h2 : l.length ≤ 2 ^ 20) :
    ∃ a ∈ l, ∃ b ∈ l, a ≤ rnd (fdiv (fsum l) l.length) ∧ rnd (fdiv (fsum l) l.length) ≤ b := by
  have hne : l ≠ [] := by intro h; rw [h] at h1; simp at h1
  obtain ⟨a, ha, ha'⟩ := exists_min hne
  obtain ⟨b, hb, hb'⟩ := exists_max hne
  refine ⟨a, ha, b, hb, ?_⟩
  obtain ⟨h3, -⟩ := mean_near hA (M := 2 ^ 20) (by norm_num) hl h1 h2
  have hp0 : (0 : ℚ) < l.length := by exact_mod_cast h1
  obtain ⟨s1, s2⟩ := sum_between (l := l) fun x hx => ⟨ha' x hx, hb' x hx⟩
  have m1 : a ≤ l.sum / l.length := by rw [le_div_iff₀ hp0]; linarith
  have m2 : l.sum / l.length ≤ b := by rw [div_le_iff₀ hp0]; linarith
  have hcents : ∀ x ∈ l, ∃ s, IsCent s ∧ x = fl s ∧ |x - s| ≤ 1 / 2 ^ 20 := by
    intro x hx
    obtain ⟨t, rfl⟩ := hv x hx
    refine ⟨_, isCent_cent (fadd t.bid (fdiv t.spread 2)), rfl, ?_⟩
    have := abs_le_of_fl hA (M := 2 ^ 20) (by norm_num) (hl _ hx)
    refine (hA _).trans ?_
    have h5 : |cent (fadd t.bid (fdiv t.spread 2))| / 2 ^ 53 ≤ 2 ^ 22 / 2 ^ 53 := by gcongr; linarith
    have h6 : (2 : ℚ) ^ 22 / 2 ^ 53 + 1 / 2 ^ 200 ≤ 1 / 2 ^ 20 := by norm_num
    linarith
  rw [abs_le] at h3
  constructor
  · obtain ⟨s, hs, e, hd⟩ := hcents a ha
    rw [abs_le] at hd
    rw [e]
    refine fl_mono (cent_ge_of hs ?_)
    have e1 : (2 : ℚ) ^ 20 / 2 ^ 30 + 1 / 2 ^ 20 < 1 / 200 := by norm_num
    linarith
  · obtain ⟨s, hs, e, hd⟩ := hcents b hb
    rw [abs_le] at hd
    rw [e]
    refine fl_mono (cent_le_of hs ?_)
    have e1 : (2 : ℚ) ^ 20 / 2 ^ 30 + 1 / 2 ^ 20 < 1 / 200 := by norm_num
    linarith

/-- C71: a moving average over `p` frames lies between the lowest and the highest of their last tick values (at most
2^20 in absolute value, at most 2^20 frames): binary64 rounding never carries it outside. -/
theorem C71_between (hA : Accurate) (u : Unit') (q m : ℤ) (hm : 1 ≤ m) (fs : FrameSet) (h : List HEv)
    (hF : Feeds u q m fs h) (r : String) (mp : ℤ) (p : ℕ) (hp : 1 ≤ p) (hp2 : p ≤ 2 ^ 20) (hpm : (p : ℤ) ≤ mp)
    (hr : Spec.Registered h r ⟨r, .sma mp, false⟩) (i : ℕ) (f : Frame) (hf : fs.heap[i]? = some f) (hi : p ≤ i + 1)
    (hc : ∀ x ∈ Spec.closes fs p i, |x| ≤ 2 ^ 20) :
    ∃ v x, f.get r = some v ∧ smaGet fs.heap v p = .ok (some x) ∧
      ∃ a ∈ Spec.closes fs p i, ∃ b ∈ Spec.closes fs p i, a ≤ x ∧ x ≤ b := by
  obtain ⟨v, h1, h2⟩ := C45_sma_partial u q m hm fs h hF r mp p hp hpm hr i f hf
  unfold Spec.mean at h2
  rw [lastValues_length hf, if_neg (by omega), lastN_lastValues hf] at h2
  refine ⟨v, _, h1, h2, ?_⟩
  have hlen := closes_length hf hi
  have := rnd_mean_between hA closes_values hc (by omega) (by omega)
  rwa [hlen] at this

theorem new_closes {heap : List Frame}
    (hh : ∀ f ∈ heap, ∀ r v, Frame.get f r = some v → ∀ c ∈ v.closes, ∃ t : Tick, c = t.value)
    {ind : Indicator} {id : ℕ} {f : Frame} {v : IndVal} (hv : IndVal.new heap ind id f = .ok v) :
    ∀ c ∈ v.closes, ∃ t : Tick, c = t.value := by
  rcases hk : ind.kind with _ | _ | _ | _ | _ | mp | ⟨p, _ | n⟩
  case sma =>
    rw [IndVal.new_sma hk] at hv
    split at hv
    · cases hv
    · rename_i lc hlc
      cases hv
      intro c hc
      have hc : c ∈ lc := sliceFrom_mem hc
      rcases hp : prevValue heap ind.ref heap.length f.prev with _ | p
      · rw [hp] at hlc; cases hlc; cases hc
      · rw [hp] at hlc
        obtain ⟨j, g, hg, hget⟩ := prevValue_mem hp
        have hpc := hh g (List.mem_of_getElem? hg) _ p hget
        simp only [inherited, prevCloses] at hlc
        split at hlc
        · split at hlc
          · cases hlc
          · cases hlc
            unfold extendedCloses at hc
            rcases List.mem_append.mp hc with hc | hc
            · exact hpc c hc
            · rw [List.mem_singleton.mp hc]; exact ⟨_, rfl⟩
        · cases hlc
  case rsi.none => unfold IndVal.new at hv; rw [hk] at hv; cases hv
  case rsi.some =>
    by_cases hn : n = 0
    · unfold IndVal.new at hv; rw [hk] at hv; simp [hn] at hv
    · rw [IndVal.new_rsi hk hn] at hv
      split at hv
      · cases hv
      · rw [updateRsi_fields hv]
        intro c hc; cases hc
  all_goals (unfold IndVal.new at hv; rw [hk] at hv; cases hv; intro c hc; cases hc)

theorem Built.closeValues {u : Unit'} {q m : ℤ} {fs : FrameSet} {A : List AF} (hB : Built u q m fs A) (hm : 1 ≤ m) :
    ∀ f ∈ fs.heap, ∀ (r : String) (v : IndVal), f.get r = some v → ∀ c ∈ v.closes, ∃ t : Tick, c = t.value :=
  hB.val_inv hm (fun v => ∀ c ∈ v.closes, ∃ t : Tick, c = t.value) (fun _ hh _ _ _ _ hv => new_closes hh hv)
    (fun _ _ w w' _ _ hP hw => by
      have hfd := IndVal.onNewTick_fields hw
      rw [IndVal.track_eq] at hfd
      have h2 : w'.closes = w.closes := by rw [hfd]; split_ifs <;> rfl
      rw [h2]; exact hP)

/-- C71 for averages of any kind at any moment: whatever the history of the value, `get_value` of a positive number
of periods lies between two of its closes (`extended_closes`). -/
theorem C71_any_average (hA : Accurate) (u : Unit') (q m : ℤ) (hm : 1 ≤ m) (fs : FrameSet) (h : List HEv)
    (hF : Feeds u q m fs h) (i : ℕ) (f : Frame) (r : String) (v : IndVal) (hf : fs.heap[i]? = some f)
    (hv : f.get r = some v) (p : ℕ) (hp : 1 ≤ p) (hp2 : p ≤ 2 ^ 20) (x : ℚ) (hx : smaGet fs.heap v p = .ok (some x))
    (hc : ∀ y ∈ extendedCloses v f, |y| ≤ 2 ^ 20) :
    ∃ a ∈ extendedCloses v f, ∃ b ∈ extendedCloses v f, a ≤ x ∧ x ≤ b := by
  obtain ⟨A, hB, -⟩ := feeds_built hm hF
  have hfr : v.parent fs.heap = some f := by
    have hR := hB.rep hm
    have hlt : i < A.length := by rw [← hR.len]; exact (List.getElem?_eq_some_iff.mp hf).1
    have h1 := hB.indRep hm r i _ f (List.getElem?_eq_getElem hlt) hf
    have hfr : v.frame = i := by
      rcases hs : scan r A[i].evs with _ | ⟨ind, ts⟩
      · rw [hs, hv] at h1; cases h1
      · rw [hs, hv] at h1
        obtain ⟨w, e1, -, e3, -⟩ := h1
        cases e1; exact e3
    unfold IndVal.parent; rw [hfr]; exact hf
  have hvals : ∀ y ∈ extendedCloses v f, ∃ t : Tick, y = t.value := by
    intro y hy
    unfold extendedCloses at hy
    rcases List.mem_append.mp hy with hy | hy
    · exact hB.closeValues hm f (List.mem_of_getElem? hf) r v hv y hy
    · rw [List.mem_singleton.mp hy]; exact ⟨_, rfl⟩
  unfold smaGet at hx
  rw [hfr] at hx
  simp only at hx
  split_ifs at hx with hlt
  · cases hx
  rw [sliceFrom_neg _ (by omega), Int.toNat_natCast] at hx
  have hlen : (Spec.lastN p (extendedCloses v f)).length = p := by
    rw [lastN_length]; omega
  have hp0 : (p : ℚ) ≠ 0 := by exact_mod_cast (by omega : p ≠ 0)
  simp only [bind, Except.bind, pyDiv, Int.cast_natCast, if_neg hp0] at hx
  cases hx
  have hsub : ∀ y ∈ Spec.lastN p (extendedCloses v f), y ∈ extendedCloses v f := fun y hy => by
    unfold Spec.lastN at hy
    exact List.mem_of_mem_drop hy
  obtain ⟨a, ha, b, hb, h1⟩ := rnd_mean_between hA (l := Spec.lastN p (extendedCloses v f))
    (fun y hy => hvals y (hsub y hy)) (fun y hy => hc y (hsub y hy)) (by omega) (by omega)
  rw [hlen] at h1
  exact ⟨a, hsub a ha, b, hsub b hb, h1⟩

/-- ... whereas a window of zero periods is a `ZeroDivisionError` on every average. -/
theorem C71_zero_periods (heap : List Frame) (v : IndVal) (f : Frame) (hf : heap[v.frame]? = some f) :
    smaGet heap v 0 = .error .zeroDiv := by
  unfold smaGet
  rw [show v.parent heap = some f from hf]
  simp only
  rw [if_neg (by omega)]
  rfl

/-! ## C48 in floats -/

/-- Spec: the exact changes from each number to the next. -/
def Spec.exactDiffs (l : List ℚ) : List ℚ := List.zipWith (fun a b => b - a) l l.tail

/-- Spec: the last `n` exact changes of the last tick values of the frames up to position `i`. -/
def Spec.exactWindow (fs : FrameSet) (n i : ℕ) : List ℚ := Spec.lastN n (Spec.exactDiffs (Spec.lastValues fs i))

theorem changeOf_values (hG : Gap) {a b : ℚ} (ha : ∃ t : Tick, a = t.value) (hb : ∃ t : Tick, b = t.value) :
    ChangeOf (fsub b a) (b - a) := by
  obtain ⟨t, rfl⟩ := ha
  obtain ⟨t', rfl⟩ := hb
  refine ⟨rfl, ?_⟩
  rcases lt_trichotomy t.value t'.value with h | h | h
  · right
    have := hG _ _ h
    rw [abs_of_pos (by linarith)]
    exact this
  · left; linarith
  · right
    have := hG _ _ h
    rw [abs_of_neg (by linarith), neg_sub]
    exact this

theorem diffs_changeOf (hG : Gap) : ∀ (l : List ℚ), (∀ x ∈ l, ∃ t : Tick, x = t.value) →
    List.Forall₂ ChangeOf (Spec.diffs l) (Spec.exactDiffs l)
  | [], _ => .nil
  | [_], _ => .nil
  | a :: b :: l, h =>
    .cons (changeOf_values hG (h a (by simp)) (h b (by simp)))
      (diffs_changeOf hG (b :: l) fun x hx => h x (List.mem_cons_of_mem _ hx))

theorem window_changeOf (hG : Gap) (fs : FrameSet) (n i : ℕ) :
    List.Forall₂ ChangeOf (Spec.window fs n i) (Spec.exactWindow fs n i) := by
  have h := diffs_changeOf hG (Spec.lastValues fs i) (by
    intro x hx
    unfold Spec.lastValues at hx
    obtain ⟨f, -, rfl⟩ := List.mem_map.mp hx
    exact ⟨_, rfl⟩)
  unfold Spec.window Spec.exactWindow Spec.lastN
  rw [h.length_eq]
  exact List.forall₂_drop _ h

/-- C48 in floats: for windows of 2 to 2^20 changes the published RSI differs from the exact
`100 * gains / (gains + losses)` of the tick values by at most 0.0051, half a cent of which is the rounding to cents;
without losses it is 100.  No bound on the prices.  Missing: `N = 1` (`C48_false`). -/
theorem C48_value_in_floats_partial (hA : Accurate) (hG : Gap) (u : Unit') (q m : ℤ) (hm : 2 ≤ m) (fs : FrameSet)
    (h : List HEv) (hF : Feeds u q m fs h) (r : String) (p : ℤ) (n : ℕ) (hn : 2 ≤ n) (hn' : n ≤ 2 ^ 20)
    (hr : Spec.Registered h r ⟨r, .rsi p (some n), false⟩) (i : ℕ) (f : Frame) (hf : fs.heap[i]? = some f)
    (hi : n ≤ i) :
    ∃ v x, f.get r = some v ∧ v.rsi = some x ∧
      ((Spec.falls (Spec.exactWindow fs n i) = 0 ∧ x = 100) ∨
       (0 < Spec.falls (Spec.exactWindow fs n i) ∧
        |x - 100 * Spec.rises (Spec.exactWindow fs n i) /
          (Spec.rises (Spec.exactWindow fs n i) + Spec.falls (Spec.exactWindow fs n i))| ≤ 51 / 10000)) := by
  obtain ⟨v, hv, h2⟩ := rsi_value hm hF hn hr hf
  rcases h2 with ⟨h2, -⟩ | ⟨-, x, h4, h3⟩
  · omega
  · refine ⟨v, x, hv, h3, ?_⟩
    have hlen : (Spec.window fs n i).length ≤ 2 ^ 20 := by
      unfold Spec.window
      rw [lastN_length]
      omega
    exact buildRsi_error hA (by exact_mod_cast (by omega : 0 < n)) (by exact_mod_cast hn')
      (window_changeOf hG fs n i) hlen h4


end

/-! ## In binary64 -/

/-- C48, binary64. -/
theorem C48_value_in_binary64_partial : letI := Arith.binary64
    ∀ (u : Unit') (q m : ℤ), 2 ≤ m → ∀ (fs : FrameSet) (h : List HEv), Feeds u q m fs h →
    ∀ (r : String) (p : ℤ) (n : ℕ), 2 ≤ n → n ≤ 2 ^ 20 → Spec.Registered h r ⟨r, .rsi p (some n), false⟩ →
    ∀ (i : ℕ) (f : Frame), fs.heap[i]? = some f → n ≤ i →
    ∃ v x, f.get r = some v ∧ v.rsi = some x ∧
      ((Spec.falls (Spec.exactWindow fs n i) = 0 ∧ x = 100) ∨
       (0 < Spec.falls (Spec.exactWindow fs n i) ∧
        |x - 100 * Spec.rises (Spec.exactWindow fs n i) /
          (Spec.rises (Spec.exactWindow fs n i) + Spec.falls (Spec.exactWindow fs n i))| ≤ 51 / 10000)) := by
  letI := Arith.binary64
  exact C48_value_in_floats_partial accurate_binary64 gap_binary64

section examples

open Demo (with1 at' value obs value_some feeds1)

private def sma (mp : ℤ) (moo : Bool) : Indicator := ⟨"s", .sma mp, moo⟩

private def rsi (p : ℤ) : Indicator := ⟨"r", .rsi p none, false⟩

private def threeMinutes : List (Ctx × Tick) := [at' 0 true 10, at' 60 false 20, at' 120 true 40]

/-- C45, C71: the hypotheses in binary64 (three frames, closes 10, 20 and 40, an average of two and of three). -/
example : letI := Arith.binary64
    ∃ fs h, Feeds .minute 1 2 fs h ∧ Spec.Registered h "s" ⟨"s", .sma 3, false⟩ ∧ Spec.closes fs 3 2 = [10, 20, 40] ∧
      (value fs 2 "s").map (fun v => smaGet fs.heap v 2) = some (.ok (some 30)) ∧
      (value fs 2 "s").map (fun v => smaGet fs.heap v 3) = some (.ok (some (fl64 (2333 / 100)))) := by
  letI := Arith.binary64
  obtain ⟨fs, hs, h1, h2, h3, -, h5⟩ := feeds1 (u := .minute) (q := 1) (m := 2) (by decide)
    (ind := sma 3 false) (l := threeMinutes) (by decide +kernel)
  exact ⟨fs, hs, h1, fun e he => by rw [h3 e he]; decide,
    obs h5 (g := fun fs => Spec.closes fs 3 2) (by decide +kernel),
    obs h5 (g := fun fs => (value fs 2 "s").map (fun v => smaGet fs.heap v 2)) (by decide +kernel),
    obs h5 (g := fun fs => (value fs 2 "s").map (fun v => smaGet fs.heap v 3)) (by decide +kernel)⟩

/-- C48: the hypotheses in binary64, a gain of 0.1 and a loss of 0.2 (about: neither is a float). -/
example : letI := Arith.binary64
    ∃ fs h, Feeds .minute 1 2 fs h ∧ Spec.Registered h "r" ⟨"r", .rsi 2 (some 2), false⟩ ∧
      (value fs 2 "r").map (fun v => v.rsi) = some (some (fl64 (3333 / 100))) ∧
      Spec.exactWindow fs 2 2 = [fl64 (101 / 10) - 10, fl64 (99 / 10) - fl64 (101 / 10)] := by
  letI := Arith.binary64
  obtain ⟨fs, hs, h1, h2, h3, -, h5⟩ := feeds1 (u := .minute) (q := 1) (m := 2) (by decide)
    (ind := rsi 2) (l := [at' 0 true 10, at' 60 true (fl64 (101 / 10)), at' 120 true (fl64 (99 / 10))])
    (by decide +kernel)
  exact ⟨fs, hs, h1, fun e he => by rw [h3 e he]; decide,
    obs h5 (g := fun fs => (value fs 2 "r").map (fun v => v.rsi)) (by decide +kernel),
    obs h5 (g := fun fs => Spec.exactWindow fs 2 2) (by decide +kernel)⟩

end examples

end Estrade
