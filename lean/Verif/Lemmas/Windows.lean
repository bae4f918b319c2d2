import Verif.Lemmas.Grouping

/-!
# Moving averages and RSI keep windows of the last tick values
-/

set_option autoImplicit false
set_option linter.unusedSectionVars false

namespace Estrade

/-- Spec: the last `n` elements. -/
def Spec.lastN {α : Type} (n : ℕ) (l : List α) : List α := l.drop (l.length - n)

theorem lastN_length {α : Type} (n : ℕ) (l : List α) : (Spec.lastN n l).length = min n l.length := by
  unfold Spec.lastN; rw [List.length_drop]; omega

theorem lastN_append {α : Type} (n : ℕ) (l k : List α) (h : n ≤ k.length) :
    Spec.lastN n (l ++ k) = Spec.lastN n k := by
  unfold Spec.lastN
  rw [List.length_append, show l.length + k.length - n = l.length + (k.length - n) by omega,
    List.drop_append]
  simp

theorem lastN_eq_append {α : Type} (n : ℕ) (l : List α) : ∃ p, l = p ++ Spec.lastN n l :=
  ⟨_, (List.take_append_drop (l.length - n) l).symm⟩

theorem lastN_all {α : Type} (n : ℕ) (l : List α) (h : l.length ≤ n) : Spec.lastN n l = l := by
  unfold Spec.lastN
  rw [show l.length - n = 0 by omega]; rfl

/-- The last `k` of the last `n` extended by `x` are the last `k` of the whole list, for `k ≤ n + 1`. -/
theorem lastN_snoc {α : Type} (n k : ℕ) (hk : k ≤ n + 1) (l : List α) (x : α) :
    Spec.lastN k (Spec.lastN n l ++ [x]) = Spec.lastN k (l ++ [x]) := by
  by_cases h : l.length ≤ n
  · rw [lastN_all n l h]
  · obtain ⟨p, hp⟩ := lastN_eq_append n l
    conv_rhs => rw [hp, List.append_assoc]
    rw [lastN_append k p _ (by rw [List.length_append, List.length_singleton, lastN_length]; omega)]

theorem lastN_succ_snoc {α : Type} (n : ℕ) (l : List α) (x : α) :
    Spec.lastN (n + 1) (l ++ [x]) = Spec.lastN n l ++ [x] := by
  rw [← lastN_snoc n (n + 1) le_rfl, lastN_all]
  simp only [List.length_append, List.length_singleton, lastN_length]; omega

theorem sliceFrom_neg {α : Type} (l : List α) {k : ℤ} (h : 1 ≤ k) : sliceFrom l (k * -1) = Spec.lastN k.toNat l := by
  unfold sliceFrom Spec.lastN
  rw [if_neg (by omega), show -(k * -1) = k by omega]

theorem sliceFrom_zero {α : Type} (l : List α) : sliceFrom l (0 * -1) = l := by
  unfold sliceFrom; simp

/-- The recurrence of the windows of `SimpleMovingAverageValue` and `RSIValue`. -/
theorem sliceFrom_snoc {α : Type} (l : List α) (x : α) {k : ℤ} (h : 0 ≤ k) :
    sliceFrom (sliceFrom l (k * -1) ++ [x]) (k * -1) = sliceFrom (l ++ [x]) (k * -1) := by
  rcases h.eq_or_lt with h | h
  · rw [← h, sliceFrom_zero, sliceFrom_zero, sliceFrom_zero]
  · rw [sliceFrom_neg _ h, sliceFrom_neg _ h, sliceFrom_neg _ h, lastN_snoc]
    omega

variable [Arith]

/-- Spec: the changes from each number to the next. -/
def Spec.changes : List ℚ → List ℚ
  | a :: b :: l => fsub b a :: Spec.changes (b :: l)
  | _ => []

theorem changes_snoc (l : List ℚ) (a x : ℚ) : Spec.changes (l ++ [a] ++ [x]) = Spec.changes (l ++ [a]) ++ [fsub x a] := by
  induction l with
  | nil => rfl
  | cons b l ih =>
    cases l with
    | nil => rfl
    | cons c l =>
      simp only [List.cons_append, Spec.changes] at ih ⊢
      rw [ih]

theorem changes_length (l : List ℚ) : (Spec.changes l).length = l.length - 1 := by
  induction l with
  | nil => rfl
  | cons a l ih =>
    cases l with
    | nil => rfl
    | cons b l => rw [Spec.changes, List.length_cons, ih]; simp

/-- The last tick values of all frames ever created. -/
def FrameSet.lasts (fs : FrameSet) : List ℚ := fs.heap.map (fun f => f.last.value)

/-! ## Values exist on every frame -/

/-- Registered during every delivery, and not only for an open market. -/
def Always (A : List AF) (r : String) (ind : Indicator) : Prop :=
  (∀ a ∈ A, ∀ e ∈ a.evs, e.reg.get? r = some ind) ∧ ind.marketOpenOnly = false

theorem Built.value {u : Unit'} {q m : ℤ} {fs : FrameSet} {A : List AF} (hB : Built u q m fs A)
    (hm : 1 ≤ m) {r : String} {ind : Indicator} (hA : Always A r ind) {i : ℕ} {f : Frame}
    (hf : fs.heap[i]? = some f) : ∃ v, f.get r = some v ∧ v.ind = ind ∧ v.frame = i ∧ ind.ref = r := by
  have hR := hB.rep hm
  have hlt : i < A.length := by rw [← hR.len]; exact (List.getElem?_eq_some_iff.mp hf).1
  have ha : A[i]? = some A[i] := List.getElem?_eq_getElem hlt
  have h1 := hB.indRep hm r i _ f ha hf
  have hmem : A[i] ∈ A := List.getElem_mem hlt
  have hne : A[i].evs ≠ [] := by
    intro h0
    have := (hR.core i _ f ha hf).sum.first
    rw [h0] at this; cases this
  rw [scan_const (hA.1 _ hmem), hA.2] at h1
  simp only [Bool.not_false, Bool.true_or, List.filter_true] at h1
  rw [if_neg hne] at h1
  obtain ⟨v, e1, e2, e3, e4, -⟩ := h1
  exact ⟨v, e1, e2, e3, e4⟩

theorem Always.init {A B : List AF} {r : String} {ind : Indicator} (h : Always (A ++ B) r ind) : Always A r ind :=
  ⟨fun a ha => h.1 a (List.mem_append_left _ ha), h.2⟩

theorem Always.last {A : List AF} {a : AF} {e : Ev} {r : String} {ind : Indicator} (h : Always (A ++ [a]) r ind)
    (he : e ∈ a.evs) : e.reg.get? r = some ind := h.1 a (by simp) e he

theorem Always.before {B : List AF} {a : AF} {e : Ev} {r : String} {ind : Indicator}
    (h : Always (B ++ [{ a with evs := a.evs ++ [e] }]) r ind) : Always (B ++ [a]) r ind := by
  refine ⟨?_, h.2⟩
  intro x hx y hy
  rcases List.mem_append.mp hx with hx | hx
  · exact h.1 x (List.mem_append_left _ hx) y hy
  · rw [List.mem_singleton.mp hx] at hy
    exact h.1 _ (List.mem_append_right _ (List.mem_singleton.mpr rfl)) y (List.mem_append_left _ hy)

/-- The last frame with its value, as `previous` finds them from a new frame. -/
theorem Built.prevValue_new {u : Unit'} {q m : ℤ} {fs : FrameSet} {A : List AF} (hB : Built u q m fs A)
    (hm : 1 ≤ m) {r : String} {ind : Indicator} (hA : Always A r ind) :
    (A = [] ∧ fs.frames.getLast? = none ∧ prevValue fs.heap r fs.heap.length fs.frames.getLast? = none) ∨
    ∃ k g p, fs.heap.length = k + 1 ∧ fs.frames.getLast? = some k ∧ fs.heap[k]? = some g ∧
      prevValue fs.heap r fs.heap.length fs.frames.getLast? = some p ∧
      g.get r = some p ∧ p.ind = ind ∧ p.frame = k ∧ ind.ref = r := by
  have hR := hB.rep hm
  have hl := hR.getLast (by rw [hB.fields.2.2]; exact hm)
  rcases hn : A.length with _ | k
  · left
    rw [if_pos hn] at hl
    rw [hl, hR.len, hn]
    exact ⟨List.length_eq_zero_iff.mp hn, rfl, rfl⟩
  · right
    rw [if_neg (by omega), hn, Nat.add_sub_cancel] at hl
    have hlt : k < fs.heap.length := by rw [hR.len]; omega
    have hg : fs.heap[k]? = some fs.heap[k] := List.getElem?_eq_getElem hlt
    obtain ⟨p, h1, h2, h3, h4⟩ := hB.value hm hA hg
    refine ⟨k, _, p, by rw [hR.len, hn], hl, hg, ?_, h1, h2, h3, h4⟩
    rw [hl, hR.len, hn, prevValue, hg]
    simp only [h1]

/-! ## Simple moving average -/

theorem lasts_set {fs : FrameSet} {i : ℕ} {f : Frame} {j : ℕ} (h : j ≤ i) :
    (FrameSet.lasts { fs with heap := fs.heap.set i f }).take j = fs.lasts.take j := by
  unfold FrameSet.lasts
  simp only [List.map_set]
  rw [List.take_set_of_le h]

theorem lasts_of_bare {fs fs' : FrameSet} {f : Frame}
    (h : ∀ i : ℕ, (fs'.heap[i]?).map Frame.bare = ((fs.heap ++ [f])[i]?).map Frame.bare) :
    fs'.lasts = fs.lasts ++ [f.last.value] := by
  have : fs'.heap.map Frame.bare = (fs.heap ++ [f]).map Frame.bare := by
    apply List.ext_getElem?
    intro i
    rw [List.getElem?_map, List.getElem?_map, h i]
  have e : ∀ l : List Frame, l.map (fun f => f.last.value) = (l.map Frame.bare).map (fun f => f.last.value) := by
    intro l; rw [List.map_map]; rfl
  unfold FrameSet.lasts
  rw [e, this, ← e, List.map_append]; rfl

theorem lasts_length (fs : FrameSet) : fs.lasts.length = fs.heap.length := by simp [FrameSet.lasts]

theorem Built.closes {u : Unit'} {q m : ℤ} {fs : FrameSet} {A : List AF} (hB : Built u q m fs A)
    (hm : 1 ≤ m) {r : String} {ind : Indicator} {mp : ℤ} (hk : ind.kind = .sma mp) (hmp : 1 ≤ mp)
    (hA : Always A r ind) : ∀ (i : ℕ) (f : Frame) (v : IndVal), fs.heap[i]? = some f → f.get r = some v →
      v.closes = sliceFrom (fs.lasts.take i) ((mp - 1) * -1) := by
  induction hB with
  | new => intro i f v h; simp at h
  | ind x hB ih =>
    rw [addIndicator_fields]; exact ih hA
  | create c t ps pe hB h ih =>
    rename_i fs fs' A
    have hR := hB.rep hm
    have ih := ih hA.init
    obtain ⟨g, hu, hb, -, -⟩ := createFrame_inv hR (by rw [hB.fields.2.2]; exact hm) h
    have hl := lasts_of_bare hb
    intro i f v hf hv
    have hbi := hb i
    rw [hf] at hbi
    obtain ⟨f0, hf0, hbare⟩ := Option.map_eq_some_iff.mp hbi.symm
    rw [get_of_bare hbare.symm] at hv
    rcases snoc_cases hf0 with ⟨hi, hf0⟩ | ⟨hi, rfl⟩
    · rw [hl, List.take_append_of_le_length (by rw [lasts_length]; omega)]
      exact ih i f0 v hf0 hv
    · have hreg : fs.indicators.get? r = some ind := hA.last (e := ⟨t, c.marketOpen, fs.indicators⟩) (by simp)
      have hv' := (hB.regOk.upsert_get r hu).2 ind hreg
      have hv' : ind.build fs.heap fs.heap.length (Frame.fresh t ps pe fs.frames.getLast?) c.marketOpen =
        .ok (f0.get r) := hv'
      rw [hv] at hv'
      unfold Indicator.build at hv'
      rw [hA.2] at hv'
      simp only [Bool.not_false, Bool.true_or, if_true, bind, Except.bind] at hv'
      split at hv'
      · cases hv'
      rename_i w hw
      cases hv'
      rw [IndVal.new_sma hk] at hw
      rw [hl, hi, List.take_left' (lasts_length fs)]
      rw [hB.regOk.2 r ind hreg] at hw
      change (match inherited (prevValue fs.heap r fs.heap.length fs.frames.getLast?) (prevCloses fs.heap) with
        | .error e => Except.error e
        | .ok lc => .ok { IndVal.base ind fs.heap.length (Frame.fresh t ps pe fs.frames.getLast?) with
            closes := sliceFrom lc ((mp - 1) * -1) }) = .ok v at hw
      rcases hB.prevValue_new hm hA.init with ⟨h0, -, hp⟩ | ⟨k, g, p, hlen, -, hg, hp, hgp, hind, hfr, -⟩
      · rw [hp] at hw
        simp only [inherited] at hw
        cases hw
        have : fs.lasts = [] := by
          rw [← List.length_eq_zero_iff, lasts_length, hR.len, h0]; rfl
        rw [this]
      · rw [hp] at hw
        simp only [inherited, prevCloses, hind, hk, hfr, hg] at hw
        cases hw
        simp only [extendedCloses]
        rw [ih k g p hg hgp, sliceFrom_snoc _ _ (by omega)]
        congr 1
        have hx : fs.lasts[k]? = some g.last.value := by unfold FrameSet.lasts; rw [List.getElem?_map, hg]; rfl
        obtain ⟨hlt, hx⟩ := List.getElem?_eq_some_iff.mp hx
        rw [← hx, List.take_append_getElem hlt, List.take_of_length_le (by rw [lasts_length, hlen])]
  | add c t hB h ih =>
    rename_i fs fs' B x
    have hR := hB.rep hm
    have ih := ih hA.before
    obtain ⟨f0, f1, h0, -, hu, hfs, -⟩ := addToLast_inv hR (by rw [hB.fields.2.2]; exact hm) h
    have hlt : B.length < fs.heap.length := by rw [hR.len]; simp
    intro i f v hf hv
    rw [hfs] at hf
    simp only at hf
    have hile : i ≤ B.length := by
      have := (List.getElem?_eq_some_iff.mp hf).1
      rw [List.length_set, hR.len] at this
      simp at this; omega
    rw [hfs, lasts_set hile]
    rcases hile.lt_or_eq with hi | rfl
    · rw [List.getElem?_set_ne (by omega)] at hf
      exact ih i f v hf hv
    · rw [List.getElem?_set_self hlt] at hf
      cases hf
      have hreg : fs.indicators.get? r = some ind := hA.last (e := ⟨t, c.marketOpen, fs.indicators⟩) (by simp)
      have hv' := (hB.regOk.upsert_get r hu).2 ind hreg
      obtain ⟨w, hw, -⟩ := hB.value hm hA.before h0
      have hw' : (f0.track t).get r = some w := by rw [track_eq]; exact hw
      rw [hw'] at hv'
      obtain ⟨w', g1, g2⟩ := hv'
      rw [hv] at g2
      cases g2
      have hfd := IndVal.onNewTick_fields g1
      rw [hfd, IndVal.track_eq]
      rw [← ih B.length f0 w h0 hw]
      split_ifs <;> rfl

/-! ## RSI -/

theorem updateRsi_cases {heap : List Frame} {f : Frame} {n : ℤ} {v v' : IndVal} (hn : n ≠ 0)
    (h : updateRsi heap f n v = .ok v') :
    (((extendedChanges heap v f).length : ℤ) ≠ n ∧ v' = v) ∨
    (((extendedChanges heap v f).length : ℤ) = n ∧
      ∃ x, buildRsi n (extendedChanges heap v f) = .ok x ∧ v' = { v with rsi := some x }) := by
  unfold updateRsi at h
  simp only at h
  by_cases he : ((extendedChanges heap v f).length : ℤ) = n
  · rw [if_pos ⟨hn, he⟩] at h
    simp only [bind, Except.bind] at h
    split at h
    · cases h
    · rename_i x hx
      cases h
      exact .inr ⟨he, x, hx, rfl⟩
  · rw [if_neg (by tauto)] at h
    cases h
    exact .inl ⟨he, rfl⟩

/-- What an RSI value of the frame with index `i` holds. -/
def RsiOk (n : ℤ) (L : List ℚ) (i : ℕ) (v : IndVal) : Prop :=
  v.changes = Spec.lastN (n - 1).toNat (Spec.changes (L.take i)) ∧
  (((i : ℤ) < n ∧ v.rsi = none) ∨
    (n ≤ (i : ℤ) ∧ ∃ x, buildRsi n (Spec.lastN n.toNat (Spec.changes (L.take (i + 1)))) = .ok x ∧ v.rsi = some x))

theorem rsi_window {n : ℤ} (hn : 2 ≤ n) {L : List ℚ} {i : ℕ} {x y : ℚ} (hx : L[i]? = some x)
    (hy : L[i + 1]? = some y) :
    Spec.lastN (n - 1).toNat (Spec.changes (L.take (i + 1))) ++ [fsub y x] =
      Spec.lastN n.toNat (Spec.changes (L.take (i + 2))) := by
  obtain ⟨h1, rfl⟩ := List.getElem?_eq_some_iff.mp hx
  obtain ⟨h2, rfl⟩ := List.getElem?_eq_some_iff.mp hy
  rw [← List.take_append_getElem h2, ← List.take_append_getElem h1, changes_snoc,
    show n.toNat = (n - 1).toNat + 1 by omega, lastN_succ_snoc]

theorem rsi_window_length {n : ℤ} (hn : 2 ≤ n) {L : List ℚ} {i : ℕ} (hi : i < L.length) :
    (Spec.lastN n.toNat (Spec.changes (L.take (i + 1)))).length = min n.toNat i := by
  rw [lastN_length, changes_length, List.length_take]; omega

/-- The extended changes of a value of frame `i`, when the link to the previous frame is there. -/
theorem extended_window {n : ℤ} (hn : 2 ≤ n) {heap : List Frame} {L : List ℚ} {i : ℕ} {f : Frame} {v : IndVal}
    (hv : v.changes = Spec.lastN (n - 1).toNat (Spec.changes (L.take i)))
    (hl : L[i]? = some f.last.value)
    (hp : f.prev = if i = 0 then none else some (i - 1))
    (hh : ∀ j, j < i → ∃ g, heap[j]? = some g ∧ L[j]? = some g.last.value) :
    extendedChanges heap v f = Spec.lastN n.toNat (Spec.changes (L.take (i + 1))) := by
  unfold extendedChanges
  rw [hp]
  rcases i with _ | i
  · simp only [if_true]
    obtain ⟨h1, -⟩ := List.getElem?_eq_some_iff.mp hl
    rw [lastN_all _ _ (by rw [changes_length, List.length_take]; omega)]
    symm
    rw [← List.length_eq_zero_iff, changes_length, List.length_take]; omega
  · rw [if_neg (by omega)]
    simp only [Nat.add_sub_cancel]
    obtain ⟨g, hg, hgl⟩ := hh i (by omega)
    rw [hg]
    simp only
    rw [hv, rsi_window hn hgl hl]

theorem rsi_update {n : ℤ} (hn : 2 ≤ n) {heap : List Frame} {L : List ℚ} {i : ℕ} {f : Frame} {v v' : IndVal}
    (hv : v.changes = Spec.lastN (n - 1).toNat (Spec.changes (L.take i)))
    (hl : L[i]? = some f.last.value)
    (hp : f.prev = if i = 0 then none else some (i - 1))
    (hh : ∀ j, j < i → ∃ g, heap[j]? = some g ∧ L[j]? = some g.last.value)
    (hnone : (i : ℤ) < n → v.rsi = none)
    (h : updateRsi heap f n v = .ok v') : RsiOk n L i v' := by
  have he := extended_window hn hv hl hp hh
  have hlen := rsi_window_length hn (List.getElem?_eq_some_iff.mp hl).1
  rcases updateRsi_cases (by omega) h with ⟨h1, rfl⟩ | ⟨h1, x, h2, rfl⟩
  · rw [he, hlen] at h1
    exact ⟨hv, .inl ⟨by omega, hnone (by omega)⟩⟩
  · rw [he, hlen] at h1
    rw [he] at h2
    exact ⟨hv, .inr ⟨by omega, x, h2, rfl⟩⟩

theorem RsiOk.congr {n : ℤ} {L L' : List ℚ} {i : ℕ} {v : IndVal} (h : RsiOk n L i v)
    (e : L.take (i + 1) = L'.take (i + 1)) : RsiOk n L' i v := by
  have e' : L.take i = L'.take i := by
    have := congrArg (List.take i) e
    simpa [List.take_take] using this
  unfold RsiOk at h ⊢
  rw [e, e'] at h
  exact h

theorem Built.rsi {u : Unit'} {q m : ℤ} {fs : FrameSet} {A : List AF} (hB : Built u q m fs A)
    (hm : 2 ≤ m) {r : String} {ind : Indicator} {p n : ℤ} (hk : ind.kind = .rsi p (some n)) (hn : 2 ≤ n)
    (hA : Always A r ind) : ∀ (i : ℕ) (f : Frame) (v : IndVal), fs.heap[i]? = some f → f.get r = some v →
      RsiOk n fs.lasts i v := by
  have hm1 : 1 ≤ m := by omega
  have lastsGet : ∀ (fs : FrameSet) (j : ℕ) (g : Frame), fs.heap[j]? = some g → fs.lasts[j]? = some g.last.value := by
    intro fs j g hg; unfold FrameSet.lasts; rw [List.getElem?_map, hg]; rfl
  induction hB with
  | new => intro i f v h; simp at h
  | ind x hB ih =>
    rw [addIndicator_fields]; exact ih hA
  | create c t ps pe hB h ih =>
    rename_i fs fs' A
    have hR := hB.rep hm1
    have hM : fs.maxFrames = m := hB.fields.2.2
    have ih := ih hA.init
    obtain ⟨g, hu, hb, -, -⟩ := createFrame_inv hR (by rw [hM]; exact hm1) h
    have hl := lasts_of_bare hb
    intro i f v hf hv
    have hbi := hb i
    rw [hf] at hbi
    obtain ⟨f0, hf0, hbare⟩ := Option.map_eq_some_iff.mp hbi.symm
    rw [get_of_bare hbare.symm] at hv
    rcases snoc_cases hf0 with ⟨hi, hf0⟩ | ⟨hi, rfl⟩
    · refine (ih i f0 v hf0 hv).congr ?_
      rw [hl, List.take_append_of_le_length (by rw [lasts_length]; omega)]
    · have hreg : fs.indicators.get? r = some ind := hA.last (e := ⟨t, c.marketOpen, fs.indicators⟩) (by simp)
      have hv' := (hB.regOk.upsert_get r hu).2 ind hreg
      have hv' : ind.build fs.heap fs.heap.length (Frame.fresh t ps pe fs.frames.getLast?) c.marketOpen =
        .ok (f0.get r) := hv'
      rw [hv] at hv'
      unfold Indicator.build at hv'
      rw [hA.2] at hv'
      simp only [Bool.not_false, Bool.true_or, if_true, bind, Except.bind] at hv'
      split at hv'
      · cases hv'
      rename_i w hw
      cases hv'
      rw [IndVal.new_rsi hk (by omega), hB.regOk.2 r ind hreg] at hw
      have hft : f0.last = t := by rw [upsert_inds hu]; rfl
      have hL : fs'.lasts[i]? = some (Frame.fresh t ps pe fs.frames.getLast?).last.value := by
        rw [hl, hi, ← lasts_length fs]; simp [Frame.fresh, hft]
      have hh : ∀ j, j < i → ∃ g, fs.heap[j]? = some g ∧ fs'.lasts[j]? = some g.last.value := by
        intro j hj
        have hjl : j < fs.heap.length := by omega
        refine ⟨fs.heap[j], List.getElem?_eq_getElem hjl, ?_⟩
        rw [hl, List.getElem?_append_left (by rw [lasts_length]; exact hjl)]
        exact lastsGet fs j _ (List.getElem?_eq_getElem hjl)
      have hpre : fs'.lasts.take i = fs.lasts := by rw [hl, hi]; exact List.take_left' (lasts_length fs)
      change (match inherited (prevValue fs.heap r fs.heap.length fs.frames.getLast?) (prevChanges fs.heap) with
        | .error e => Except.error e
        | .ok lc => updateRsi fs.heap (Frame.fresh t ps pe fs.frames.getLast?) n
          { IndVal.base ind fs.heap.length (Frame.fresh t ps pe fs.frames.getLast?) with
            changes := sliceFrom lc ((n - 1) * -1) }) = .ok v at hw
      rcases hB.prevValue_new hm1 hA.init with ⟨h0, hfr0, hp⟩ | ⟨k, g, p', hlen, hlast, hg, hp, hgp, hind, hfr, -⟩
      · rw [hp] at hw
        simp only [inherited] at hw
        have hz : fs.lasts = [] := by
          rw [← List.length_eq_zero_iff, lasts_length, hR.len, h0]; rfl
        have hi0 : i = 0 := by rw [hi, hR.len, h0]; rfl
        refine rsi_update hn ?_ hL (by rw [hi0]; exact hfr0) hh (fun _ => rfl) hw
        simp only
        rw [hpre, hz, sliceFrom_neg _ (by omega)]; rfl
      · rw [hp] at hw
        simp only [inherited, prevChanges, hind, hk, hfr, hg] at hw
        have hgprev : g.prev = if k = 0 then none else some (k - 1) := by
          have := hR.prev k g hg
          rw [hM, ← hR.len, hlen] at this
          rw [this]
          split_ifs <;> first | rfl | omega
        have hext : extendedChanges fs.heap p' g = Spec.lastN n.toNat (Spec.changes (fs.lasts.take (k + 1))) := by
          refine extended_window hn (ih k g p' hg hgp).1 (lastsGet fs k g hg) hgprev ?_
          intro j hj
          have hjl : j < fs.heap.length := by omega
          exact ⟨_, List.getElem?_eq_getElem hjl, lastsGet fs j _ (List.getElem?_eq_getElem hjl)⟩
        refine rsi_update hn ?_ hL (by rw [hi, hlen, if_neg (by omega)]; exact hlast) hh (fun _ => rfl) hw
        simp only [hext]
        rw [List.take_of_length_le (by rw [lasts_length, hlen]), hpre, sliceFrom_neg _ (by omega)]
        obtain ⟨pre, hpre'⟩ := lastN_eq_append n.toNat (Spec.changes fs.lasts)
        by_cases hc : (Spec.changes fs.lasts).length ≤ n.toNat
        · rw [lastN_all _ _ hc]
        · conv_rhs => rw [hpre']
          rw [lastN_append]
          rw [lastN_length]; omega
  | add c t hB h ih =>
    rename_i fs fs' B x
    have hR := hB.rep hm1
    have hM : fs.maxFrames = m := hB.fields.2.2
    have ih := ih hA.before
    obtain ⟨f0, f1, h0, -, hu, hfs, -⟩ := addToLast_inv hR (by rw [hM]; exact hm1) h
    have hlt : B.length < fs.heap.length := by rw [hR.len]; simp
    intro i f v hf hv
    rw [hfs] at hf
    simp only at hf
    have hile : i ≤ B.length := by
      have := (List.getElem?_eq_some_iff.mp hf).1
      rw [List.length_set, hR.len] at this
      simp at this; omega
    rcases hile.lt_or_eq with hi | rfl
    · rw [List.getElem?_set_ne (by omega)] at hf
      refine (ih i f v hf hv).congr ?_
      rw [hfs, lasts_set (by omega)]
    · rw [List.getElem?_set_self hlt] at hf
      cases hf
      have hreg : fs.indicators.get? r = some ind := hA.last (e := ⟨t, c.marketOpen, fs.indicators⟩) (by simp)
      have hv' := (hB.regOk.upsert_get r hu).2 ind hreg
      obtain ⟨w, hw, hwi, -⟩ := hB.value hm1 hA.before h0
      have hw' : (f0.track t).get r = some w := by rw [track_eq]; exact hw
      rw [hw'] at hv'
      obtain ⟨w', g1, g2⟩ := hv'
      rw [hv] at g2
      cases g2
      unfold IndVal.onNewTick at g1
      rw [hwi, hk] at g1
      simp only at g1
      obtain ⟨i1, i2⟩ := ih B.length f0 w h0 hw
      have htr : (w.track t c.marketOpen).changes = w.changes ∧ (w.track t c.marketOpen).rsi = w.rsi := by
        rw [IndVal.track_eq]; split_ifs <;> exact ⟨rfl, rfl⟩
      have hf1 := upsert_inds hu
      have hlast1 : f1.last = t := by rw [hf1, track_eq]
      refine rsi_update hn ?_ ?_ ?_ ?_ ?_ g1
      · rw [htr.1, i1, hfs, lasts_set le_rfl]
      · rw [hfs]
        unfold FrameSet.lasts
        simp only [List.map_set]
        rw [List.getElem?_set_self (by simpa using hlt), hlast1, track_eq]
      · rw [track_eq]
        have := hR.prev B.length f0 h0
        rw [hM] at this
        simp only [List.length_append, List.length_singleton] at this
        simp only
        rw [this]
        split_ifs <;> first | rfl | omega
      · intro j hj
        have hjl : j < fs.heap.length := by omega
        refine ⟨_, List.getElem?_eq_getElem hjl, ?_⟩
        have : fs'.lasts[j]? = fs.lasts[j]? := by
          rw [hfs]; unfold FrameSet.lasts
          simp only [List.map_set]
          rw [List.getElem?_set_ne (by omega)]
        rw [this]
        exact lastsGet fs j _ (List.getElem?_eq_getElem hjl)
      · intro hlt'
        rw [htr.2]
        rcases i2 with ⟨-, h⟩ | ⟨h, -⟩
        · exact h
        · omega

end Estrade
