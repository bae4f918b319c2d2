import Verif.Lemmas.ValInv

/-!
# Navigation between indicator values and the recursion of Heikin-Ashi candles
-/

set_option autoImplicit false
set_option linter.unusedSectionVars false

namespace Estrade

variable [Arith]

/-- The seen ticks behind a stored value. -/
theorem Built.value_core {u : Unit'} {q m : ℤ} {fs : FrameSet} {A : List AF} (hB : Built u q m fs A) (hm : 1 ≤ m)
    {i : ℕ} {f : Frame} (hf : fs.heap[i]? = some f) {r : String} {v : IndVal} (hv : f.get r = some v) :
    v.frame = i ∧ v.ind.ref = r ∧ ∃ a ts, A[i]? = some a ∧ scan r a.evs = some (v.ind, ts) ∧
      Spec.Summary ts v.first v.high v.low v.last := by
  have hR := hB.rep hm
  have hlt : i < A.length := by rw [← hR.len]; exact (List.getElem?_eq_some_iff.mp hf).1
  have ha : A[i]? = some A[i] := List.getElem?_eq_getElem hlt
  have h1 := hB.indRep hm r i _ f ha hf
  rcases hs : scan r A[i].evs with _ | ⟨ind, ts⟩
  · rw [hs, hv] at h1; cases h1
  · rw [hs, hv] at h1
    obtain ⟨w, e1, e2, e3, e4, e5⟩ := h1
    cases e1
    exact ⟨e3, by rw [e2]; exact e4, A[i], ts, ha, by rw [e2]; exact hs, e5⟩

/-- `previous_frame` links of the frames in memory form a chain down to the oldest one. -/
theorem prevValue_chain {heap : List Frame} {s : ℕ} {r : String}
    (hp : ∀ (i : ℕ) (f : Frame), heap[i]? = some f → s ≤ i → f.prev = if s < i then some (i - 1) else none) :
    ∀ (k fuel : ℕ), k < fuel → s + k < heap.length →
      prevValue heap r fuel (some (s + k)) = ((heap.drop s).take (k + 1)).reverse.findSome? (fun f => f.get r) := by
  intro k
  induction k with
  | zero =>
    intro fuel hfu hlt
    obtain ⟨n, rfl⟩ : ∃ n, fuel = n + 1 := ⟨fuel - 1, by omega⟩
    have hg : heap[s + 0]? = some heap[s] := List.getElem?_eq_getElem (by omega)
    rw [prevValue, hg]
    have e : (heap.drop s).take (0 + 1) = [heap[s]] := by
      rw [List.drop_eq_getElem_cons (by omega)]; rfl
    rw [e]
    simp only [List.reverse_singleton, List.findSome?_cons, List.findSome?_nil]
    have := hp (s + 0) heap[s] hg (by omega)
    rw [if_neg (by omega)] at this
    rcases heap[s].get r with _ | v
    · simp only [this]
      cases n <;> rfl
    · rfl
  | succ k ih =>
    intro fuel hfu hlt
    obtain ⟨n, rfl⟩ : ∃ n, fuel = n + 1 := ⟨fuel - 1, by omega⟩
    have hg : heap[s + (k + 1)]? = some heap[s + (k + 1)] := List.getElem?_eq_getElem (by omega)
    rw [prevValue, hg]
    have e : (heap.drop s).take (k + 1 + 1) = (heap.drop s).take (k + 1) ++ [heap[s + (k + 1)]] := by
      rw [← List.take_append_getElem (by rw [List.length_drop]; omega), List.getElem_drop]
    rw [e, List.reverse_append, List.reverse_singleton, List.singleton_append, List.findSome?_cons]
    have := hp _ _ hg (by omega)
    rw [if_pos (by omega), show s + (k + 1) - 1 = s + k by omega] at this
    simp only
    generalize heap[s + (k + 1)] = x at this ⊢
    rcases hx : x.get r with _ | v
    · simp only [this]
      exact ih n (by omega) (by omega)
    · rfl

/-- The value on the nearest earlier frame in memory that has one. -/
theorem Built.previous {u : Unit'} {q m : ℤ} {fs : FrameSet} {A : List AF} (hB : Built u q m fs A) (hm : 1 ≤ m)
    {j : ℕ} {f : Frame} (hf : fs.view[j]? = some f) {r : String} {v : IndVal} (hv : f.get r = some v) :
    v.previous fs.heap = (fs.view.take j).reverse.findSome? (fun g => g.get r) := by
  have hR := hB.rep hm
  rw [hR.view_get] at hf
  set s := A.length - fs.maxFrames.toNat with hs
  obtain ⟨h1, h2, -⟩ := hB.value_core hm hf hv
  have hlt := (List.getElem?_eq_some_iff.mp hf).1
  unfold IndVal.previous IndVal.parent
  rw [h1, h2, hf, Option.bind_some, hR.prev _ f hf, ← hs, hR.view]
  rcases j with _ | k
  · rw [if_neg (by omega)]
    cases fs.heap.length <;> rfl
  · rw [if_pos (by omega), show s + (k + 1) - 1 = s + k by omega]
    refine prevValue_chain ?_ k _ (by omega) (by omega)
    intro i g hg hi
    rw [hR.prev i g hg]

theorem Built.next {u : Unit'} {q m : ℤ} {fs : FrameSet} {A : List AF} (hB : Built u q m fs A) (hm : 1 ≤ m)
    {j : ℕ} {f : Frame} (hf : fs.view[j]? = some f) {r : String} {v : IndVal} (hv : f.get r = some v) :
    v.next fs.heap = (fs.view[j + 1]?).bind (fun g => g.get r) := by
  have hR := hB.rep hm
  rw [hR.view_get] at hf
  set s := A.length - fs.maxFrames.toNat with hs
  obtain ⟨h1, h2, -⟩ := hB.value_core hm hf hv
  unfold IndVal.next IndVal.parent
  rw [h1, h2, hf, Option.bind_some, hR.next _ f hf, ← hs, hR.view_get, ← hs]
  split_ifs with h
  · rw [Option.bind_some]; rfl
  · rw [Option.bind_none, List.getElem?_eq_none (by rw [hR.len]; omega)]

theorem Built.evicted {u : Unit'} {q m : ℤ} {fs : FrameSet} {A : List AF} (hB : Built u q m fs A) (hm : 1 ≤ m)
    {i : ℕ} {f : Frame} (hf : fs.heap[i]? = some f) (hi : i < A.length - fs.maxFrames.toNat) {r : String} {v : IndVal}
    (hv : f.get r = some v) : v.previous fs.heap = none ∧ v.next fs.heap = none := by
  have hR := hB.rep hm
  obtain ⟨h1, h2, -⟩ := hB.value_core hm hf hv
  constructor
  · unfold IndVal.previous IndVal.parent
    rw [h1, hf, Option.bind_some, hR.prev i f hf, if_neg (by omega)]
    cases fs.heap.length <;> rfl
  · unfold IndVal.next IndVal.parent
    rw [h1, hf, Option.bind_some, hR.next i f hf, if_neg (by omega)]; rfl

/-- `previous` leads to an earlier frame. -/
theorem Built.previous_lt {u : Unit'} {q m : ℤ} {fs : FrameSet} {A : List AF} (hB : Built u q m fs A) (hm : 1 ≤ m)
    {i : ℕ} {f : Frame} (hf : fs.heap[i]? = some f) {r : String} {v : IndVal} (hv : f.get r = some v) {p : IndVal}
    (hp : v.previous fs.heap = some p) : ∃ (k : ℕ) (g : Frame), k < i ∧ fs.heap[k]? = some g ∧ g.get r = some p := by
  have hR := hB.rep hm
  by_cases hi : i < A.length - fs.maxFrames.toNat
  · rw [(hB.evicted hm hf hi hv).1] at hp; cases hp
  · set s := A.length - fs.maxFrames.toNat with hs
    have hfv : fs.view[i - s]? = some f := by rw [hR.view_get, ← hs, show s + (i - s) = i by omega]; exact hf
    rw [hB.previous hm hfv hv] at hp
    obtain ⟨g, hg, hgp⟩ := List.exists_of_findSome?_eq_some hp
    rw [List.mem_reverse, List.mem_iff_getElem?] at hg
    obtain ⟨k, hk⟩ := hg
    rw [List.getElem?_take] at hk
    split_ifs at hk with hki
    rw [hR.view_get] at hk
    exact ⟨_, g, by omega, hk, hgp⟩

/-- Every value under `r` is a Heikin-Ashi candle. -/
def AllHeikin (fs : FrameSet) (r : String) : Prop :=
  ∀ f ∈ fs.heap, ∀ v, f.get r = some v → v.ind.kind = .heikin

theorem Built.haFuel {u : Unit'} {q m : ℤ} {fs : FrameSet} {A : List AF} (hB : Built u q m fs A) (hm : 1 ≤ m)
    {r : String} (hH : AllHeikin fs r) : ∀ (n i : ℕ), i < n → ∀ (f : Frame) (v : IndVal), fs.heap[i]? = some f → f.get r = some v →
      ∃ o, ∀ k, i < k → haOpenFuel fs.heap k v = .ok o := by
  intro n
  induction n with
  | zero => intro i hi; omega
  | succ n ih =>
    intro i hi f v hf hv
    rcases hp : v.previous fs.heap with _ | p
    · refine ⟨rnd v.first.value, fun k hk => ?_⟩
      obtain ⟨k, rfl⟩ : ∃ k', k = k' + 1 := ⟨k - 1, by omega⟩
      rw [haOpenFuel, hp]
    · obtain ⟨j, g, hj, hg, hgp⟩ := hB.previous_lt hm hf hv hp
      obtain ⟨o, ho⟩ := ih j (by omega) g p hg hgp
      refine ⟨rnd (fdiv (fadd o (haLast p)) 2), fun k hk => ?_⟩
      obtain ⟨k, rfl⟩ : ∃ k', k = k' + 1 := ⟨k - 1, by omega⟩
      rw [haOpenFuel, hp]
      simp only [hH g (List.mem_of_getElem? hg) p hgp, bind, Except.bind, ho k (by omega)]

/-- The recursion of `HeikinAshiCandle.open`, free of fuel. -/
theorem Built.haOpen {u : Unit'} {q m : ℤ} {fs : FrameSet} {A : List AF} (hB : Built u q m fs A) (hm : 1 ≤ m)
    {r : String} (hH : AllHeikin fs r) {i : ℕ} {f : Frame} {v : IndVal} (hf : fs.heap[i]? = some f)
    (hv : f.get r = some v) :
    (v.previous fs.heap = none ∧ haOpen fs.heap v = .ok (rnd v.first.value)) ∨
    ∃ p o, v.previous fs.heap = some p ∧ Estrade.haOpen fs.heap p = .ok o ∧
      Estrade.haOpen fs.heap v = .ok (rnd (fdiv (fadd o (haLast p)) 2)) := by
  have hlt := (List.getElem?_eq_some_iff.mp hf).1
  rcases hp : v.previous fs.heap with _ | p
  · left
    refine ⟨rfl, ?_⟩
    unfold Estrade.haOpen
    rw [haOpenFuel, hp]
  · right
    obtain ⟨j, g, hj, hg, hgp⟩ := hB.previous_lt hm hf hv hp
    obtain ⟨o, ho⟩ := hB.haFuel hm hH (j + 1) j (by omega) g p hg hgp
    refine ⟨p, o, rfl, ho _ (by omega), ?_⟩
    unfold Estrade.haOpen
    rw [haOpenFuel, hp]
    simp only [hH g (List.mem_of_getElem? hg) p hgp, bind, Except.bind, ho fs.heap.length (by omega)]

end Estrade
