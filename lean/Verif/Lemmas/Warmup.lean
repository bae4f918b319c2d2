import Verif.Lemmas.SameFrames
import Verif.Lemmas.Candles
import Verif.Props.Averages
import Verif.Props.Determined

/-!
# Two frame sets of which one has started earlier (C102)
-/

set_option autoImplicit false
set_option linter.unusedSectionVars false

namespace Estrade

section
variable [Arith]

/-- The frames of `fs` are some older frames `P` and those of `gs`, up to links and indicators. -/
structure Behind (P : List Frame) (fs gs : FrameSet) : Prop where
  heap : fs.heap.map Frame.naked = P ++ gs.heap.map Frame.naked
  ne : gs.heap ≠ []

theorem Behind.len {P : List Frame} {fs gs : FrameSet} (h : Behind P fs gs) : fs.heap.length = P.length + gs.heap.length := by
  simpa using congrArg List.length h.heap

theorem Behind.last {P : List Frame} {fs gs : FrameSet} (h : Behind P fs gs) :
    ∃ f g, fs.heap.getLast? = some f ∧ gs.heap.getLast? = some g ∧ f.naked = g.naked := by
  have h1 := congrArg List.getLast? h.heap
  rw [List.getLast?_map, List.getLast?_append_of_ne_nil _ (by simpa using h.ne), List.getLast?_map] at h1
  obtain ⟨g, hg⟩ := Option.isSome_iff_exists.mp (List.getLast?_isSome.mpr h.ne)
  rw [hg] at h1
  obtain ⟨f, hf, he⟩ := Option.map_eq_some_iff.mp h1
  exact ⟨f, g, hf, hg, he⟩

theorem Behind.create {u : Unit'} {q m m' : ℤ} (hm : 1 ≤ m) (hm' : 1 ≤ m') {P : List Frame} {fs fs' gs gs' : FrameSet}
    {A A' : List AF} (hB : Built u q m fs A) (hB' : Built u q m' gs A')
    (hS : fs.heap.map Frame.naked = P ++ gs.heap.map Frame.naked) {c c' : Ctx} {t : Tick} {ps : ℤ} {pe : Option ℤ}
    (h : fs.createFrame c t ps pe = .ok fs') (h' : gs.createFrame c' t ps pe = .ok gs') : Behind P fs' gs' := by
  obtain ⟨f, hu, hb, -, -⟩ := createFrame_inv (hB.rep hm) (by rw [hB.fields.2.2]; exact hm) h
  obtain ⟨g, hv, hb', -, -⟩ := createFrame_inv (hB'.rep hm') (by rw [hB'.fields.2.2]; exact hm') h'
  have e1 := map_naked_of_bare hb
  have e2 := map_naked_of_bare hb'
  refine ⟨?_, ?_⟩
  · rw [e1, e2, List.map_append, List.map_append, hS, List.append_assoc]
    congr 2
    simp only [List.map_cons, List.map_nil, List.cons.injEq, and_true]
    rw [upsert_inds hu, upsert_inds hv]
    rfl
  · intro h0
    rw [h0] at e2
    simp at e2

theorem Behind.add {u : Unit'} {q m m' : ℤ} (hm : 1 ≤ m) (hm' : 1 ≤ m') {P : List Frame} {fs fs' gs gs' : FrameSet}
    {A A' : List AF} (hB : Built u q m fs A) (hB' : Built u q m' gs A') (hS : Behind P fs gs) {c c' : Ctx} {t : Tick}
    (h : fs.addToLast c t = .ok fs') (h' : gs.addToLast c' t = .ok gs') : Behind P fs' gs' := by
  have hl := hS.len
  have hpos : 0 < gs.heap.length := List.length_pos_iff.mpr hS.ne
  unfold FrameSet.addToLast at h h'
  rw [(hB.rep hm).current_last (by rw [hB.fields.2.2]; exact hm)] at h
  rw [(hB'.rep hm').current_last (by rw [hB'.fields.2.2]; exact hm')] at h'
  obtain ⟨f, g, h1, h2, hn⟩ := hS.last
  rw [h1] at h; rw [h2] at h'
  simp only [Option.map_some, bind, Except.bind] at h h'
  split at h
  · cases h
  split at h'
  · cases h'
  rename_i _ f' hf' _ g' hg'
  cases h; cases h'
  refine ⟨?_, ?_⟩
  · simp only [List.map_set]
    have e1 : f'.naked = (f.track t).naked := by rw [upsert_inds hf']; rfl
    have e2 : g'.naked = (g.track t).naked := by rw [upsert_inds hg']; rfl
    rw [hS.heap, e1, e2, (naked_get hn).2.2.2 t, List.set_append_right _ _ (by omega)]
    congr 2
    omega
  · intro h0
    have := congrArg List.length h0
    rw [List.length_set] at this
    simp at this
    exact hS.ne this

theorem Behind.fill {u : Unit'} {q m m' : ℤ} (hm : 1 ≤ m) (hm' : 1 ≤ m') {P : List Frame} {c c' : Ctx} (hz : c.zone = c'.zone)
    {ps : ℤ} (fuel : ℕ) : ∀ (fs fs' gs gs' : FrameSet) (A A' : List AF), Built u q m fs A → Built u q m' gs A' →
    Behind P fs gs → fillLoop c ps fuel fs = .ok fs' → fillLoop c' ps fuel gs = .ok gs' →
    Behind P fs' gs' ∧ ∃ B B', Built u q m fs' B ∧ Built u q m' gs' B' := by
  induction fuel with
  | zero =>
    intro fs fs' gs gs' A A' hB hB' hS h h'
    rw [fillLoop] at h h'
    have e1 : fs' = fs := by
      split at h
      · cases h; rfl
      · split at h
        · cases h
        · split_ifs at h
          cases h; rfl
    have e2 : gs' = gs := by
      split at h'
      · cases h'; rfl
      · split at h'
        · cases h'
        · split_ifs at h'
          cases h'; rfl
    subst e1 e2
    exact ⟨hS, A, A', hB, hB'⟩
  | succ fuel ih =>
    intro fs fs' gs gs' A A' hB hB' hS h h'
    rw [fillLoop] at h h'
    rw [(hB.rep hm).current_last (by rw [hB.fields.2.2]; exact hm)] at h
    rw [(hB'.rep hm').current_last (by rw [hB'.fields.2.2]; exact hm')] at h'
    obtain ⟨f, g, h1, h2, hn⟩ := hS.last
    rw [h1] at h; rw [h2] at h'
    obtain ⟨n1, n2, n3, -⟩ := naked_get hn
    simp only [Option.map_some, n1, n3, hB.fields.1, hB.fields.2.1] at h
    simp only [Option.map_some, hB'.fields.1, hB'.fields.2.1] at h'
    rcases hpe : g.periodEnd with _ | pe
    · rw [hpe] at h; cases h
    · rw [hpe] at h h'
      simp only at h h'
      split_ifs at h h'
      · simp only [bind, Except.bind] at h h'
        split at h
        · cases h
        split at h'
        · cases h'
        rename_i _ fs1 hf1 _ gs1 hg1
        rw [hz] at hf1
        exact ih fs1 fs' gs1 gs' _ _ (Built.create _ _ _ _ hB hf1) (Built.create _ _ _ _ hB' hg1)
          (Behind.create hm hm' hB hB' hS.heap hf1 hg1) h h'
      · cases h; cases h'; exact ⟨hS, A, A', hB, hB'⟩

theorem Behind.step {u : Unit'} {q m m' : ℤ} (hm : 1 ≤ m) (hm' : 1 ≤ m') {P : List Frame} {fs fs' gs gs' : FrameSet}
    {A A' : List AF} (hB : Built u q m fs A) (hB' : Built u q m' gs A') (hS : Behind P fs gs) {c : Ctx} {t : Tick}
    (h : fs.onNewTick c t = .ok fs') (h' : gs.onNewTick c t = .ok gs') : Behind P fs' gs' := by
  have c1 := (hB.rep hm).current_last (by rw [hB.fields.2.2]; exact hm)
  have c2 := (hB'.rep hm').current_last (by rw [hB'.fields.2.2]; exact hm')
  obtain ⟨f, g, h1, h2, hn⟩ := hS.last
  rw [h1] at c1
  rw [h2] at c2
  simp only [Option.map_some] at c1 c2
  obtain ⟨n1, n2, -, -⟩ := naked_get hn
  unfold FrameSet.onNewTick at h h'
  rw [hB.fields.1] at h
  rw [hB'.fields.1] at h'
  by_cases hu : u = .tick
  · rw [if_pos hu] at h h'
    have hov : fs.overTick c t = gs.overTick c t := by
      unfold FrameSet.overTick
      rw [hB.fields.2.1, hB'.fields.2.1, c1, c2]
      simp only [n2]
    rw [hov] at h
    split_ifs at h h'
    · exact Behind.create hm hm' hB hB' hS.heap h h'
    · exact Behind.add hm hm' hB hB' hS h h'
  · rw [if_neg hu] at h h'
    have hov : fs.overTimed t = gs.overTimed t := by
      unfold FrameSet.overTimed
      rw [c1, c2]
      simp only [n1]
    rw [hov] at h
    generalize gs.overTimed t = o at h h'
    rcases o with e | b
    · cases h
    simp only [bind, Except.bind] at h h'
    cases b with
    | false =>
      simp only [Bool.false_eq_true, if_false] at h h'
      exact Behind.add hm hm' hB hB' hS h h'
    | true =>
      simp only [if_true] at h h'
      have hfuel : ∀ ps, fillFuel fs ps = fillFuel gs ps := by
        intro ps
        unfold fillFuel
        rw [c1, c2]
        simp only [n1]
      unfold FrameSet.createTimed at h h'
      rw [hB.fields.1, hB.fields.2.1] at h
      rw [hB'.fields.1, hB'.fields.2.1] at h'
      generalize frameStart u q t.dt.wall = o at h h'
      rcases o with e | ps
      · cases h
      simp only [bind, Except.bind, hfuel] at h h'
      split at h
      · cases h
      split at h'
      · cases h'
      rename_i _ fs1 hf1 _ gs1 hg1
      obtain ⟨hS1, B, B', hB1, hB1'⟩ := Behind.fill hm hm' rfl _ _ _ _ _ _ _ hB hB' hS hf1 hg1
      exact Behind.create hm hm' hB1 hB1' hS1.heap h h'

/-- The first tick of `gs`, which opens a frame of `fs`. -/
theorem Behind.first {u : Unit'} {q m m' : ℤ} (hm : 1 ≤ m) (hm' : 1 ≤ m') {fs fs' gs gs' : FrameSet} {A : List AF}
    (hB : Built u q m fs A) (hB' : Built u q m' gs []) {c c' : Ctx} (hz : c.zone = c'.zone) {t : Tick}
    (hov : ∀ f, fs.heap.getLast? = some f →
      if u = .tick then q ≤ (f.nbTicks : ℤ) else ∃ e, f.periodEnd = some e ∧ e ≤ t.dt.wall)
    (h : fs.onNewTick c t = .ok fs') (h' : gs.onNewTick c' t = .ok gs') : ∃ P, Behind P fs' gs' := by
  have c1 := (hB.rep hm).current_last (by rw [hB.fields.2.2]; exact hm)
  have h0 : gs.heap = [] := by rw [← List.length_eq_zero_iff, (hB'.rep hm').len]; rfl
  have c2 := (hB'.rep hm').current_last (by rw [hB'.fields.2.2]; exact hm')
  rw [h0] at c2
  simp only [List.getLast?_nil, Option.map_none] at c2
  unfold FrameSet.onNewTick at h h'
  rw [hB.fields.1] at h
  rw [hB'.fields.1] at h'
  by_cases hu : u = .tick
  · rw [if_pos hu] at h h'
    have e1 : fs.overTick c t = true := by
      unfold FrameSet.overTick
      rw [c1]
      rcases hl : fs.heap.getLast? with _ | f
      · rfl
      · have := hov f hl
        rw [if_pos hu] at this
        simp only [Option.map_some, hB.fields.2.1, this, decide_true, Bool.true_or]
    have e2 : gs.overTick c' t = true := by unfold FrameSet.overTick; rw [c2]
    rw [e1] at h
    rw [e2] at h'
    simp only [if_true] at h h'
    exact ⟨_, Behind.create hm hm' hB hB' (by rw [h0]; exact (List.append_nil _).symm) h h'⟩
  · rw [if_neg hu] at h h'
    have e1 : fs.overTimed t = .ok true := by
      unfold FrameSet.overTimed
      rw [c1]
      rcases hl : fs.heap.getLast? with _ | f
      · rfl
      · have := hov f hl
        rw [if_neg hu] at this
        obtain ⟨e, he, hle⟩ := this
        simp only [Option.map_some, he, hle, decide_true]
    have e2 : gs.overTimed t = .ok true := by unfold FrameSet.overTimed; rw [c2]
    rw [e1] at h
    rw [e2] at h'
    simp only [bind, Except.bind, if_true] at h h'
    unfold FrameSet.createTimed at h h'
    rw [hB.fields.1, hB.fields.2.1] at h
    rw [hB'.fields.1, hB'.fields.2.1] at h'
    generalize frameStart u q t.dt.wall = o at h h'
    rcases o with e | ps
    · cases h
    have hfill : fillLoop c' ps (fillFuel gs ps) gs = .ok gs := by
      unfold fillLoop
      rw [c2]
    simp only [bind, Except.bind, hfill] at h h'
    split at h
    · cases h
    rename_i _ fs1 hf1
    obtain ⟨-, F, hB1⟩ := fillLoop_built _ _ _ _ hB hf1
    rw [← hz] at h'
    exact ⟨_, Behind.create hm hm' hB1 hB' (by rw [h0]; exact (List.append_nil _).symm) h h'⟩

/-- The same ticks after the first. -/
theorem feeds_behind {u : Unit'} {q m m' : ℤ} (hm : 1 ≤ m) (hm' : 1 ≤ m') {fs0 : FrameSet} {pre : List HEv}
    (hF0 : Feeds u q m fs0 pre) {x x' : HEv} (hx : x.tick = x'.tick) (hz : x.ctx.zone = x'.ctx.zone)
    (hov : ∀ f, fs0.heap.getLast? = some f →
      if u = .tick then q ≤ (f.nbTicks : ℤ) else ∃ e, f.periodEnd = some e ∧ e ≤ x.tick.dt.wall) (l : List HEv) :
    ∀ (l' : List HEv), l.map (fun e => (e.ctx, e.tick)) = l'.map (fun e => (e.ctx, e.tick)) →
    ∀ (fs gs : FrameSet), Feeds u q m fs (pre ++ x :: l) → Feeds u q m' gs (x' :: l') → ∃ P, Behind P fs gs := by
  induction l using List.reverseRecOn with
  | nil =>
    intro l' he fs gs hF hF'
    have : l' = [] := by simpa using he.symm
    subst this
    obtain ⟨a, a', g1, g2, g3⟩ := feeds_snoc hF rfl
    obtain ⟨b, b', k1, k2, k3⟩ := feeds_snoc (h := []) hF' rfl
    obtain ⟨A, hB, -⟩ := feeds_built hm g1
    obtain ⟨A', hB', -⟩ := feeds_built hm' k1
    have hA' : A' = [] := by
      rw [← List.length_eq_zero_iff, ← (hB'.rep hm').len, feeds_nil k1 rfl]; rfl
    subst hA'
    rw [← hx] at k2
    obtain ⟨P, hP⟩ := Behind.first hm hm' hB hB' hz (by
      intro f hf
      have hS := feeds_same hm hm pre pre rfl a fs0 g1 hF0
      rcases same_last hS with ⟨h1, -⟩ | ⟨f1, f2, h1, h2, hn⟩
      · rw [h1] at hf; cases hf
      · rw [h1] at hf; cases hf
        obtain ⟨n1, n2, -, -⟩ := naked_get hn
        rw [n1, n2]
        exact hov f2 h2) g2 k2
    exact ⟨P, by rw [g3, k3]; exact hP.heap, by rw [k3]; exact hP.ne⟩
  | append_singleton l y ih =>
    intro l' he fs gs hF hF'
    rcases List.eq_nil_or_concat l' with rfl | ⟨l1, y', rfl⟩
    · simp at he
    rw [List.concat_eq_append] at he hF'
    rw [List.map_append, List.map_append] at he
    obtain ⟨e1, e2⟩ := List.append_inj' he rfl
    simp only [List.map_cons, List.map_nil, List.cons.injEq, and_true, Prod.mk.injEq] at e2
    obtain ⟨a, a', g1, g2, g3⟩ := feeds_snoc hF (h := pre ++ x :: l) (x := y) (by simp)
    obtain ⟨b, b', k1, k2, k3⟩ := feeds_snoc hF' (h := x' :: l1) (x := y') (by simp)
    obtain ⟨P, hP⟩ := ih l1 e1 a b g1 k1
    obtain ⟨A, hB, -⟩ := feeds_built hm g1
    obtain ⟨A', hB', -⟩ := feeds_built hm' k1
    rw [← e2.1, ← e2.2] at k2
    have := Behind.step hm hm' hB hB' hP g2 k2
    exact ⟨P, by rw [g3, k3]; exact this.heap, by rw [k3]; exact this.ne⟩

theorem Behind.get {P : List Frame} {fs gs : FrameSet} (h : Behind P fs gs) {i : ℕ} {g : Frame} (hg : gs.heap[i]? = some g) :
    ∃ f, fs.heap[P.length + i]? = some f ∧ f.naked = g.naked := by
  have h1 := congrArg (fun l => l[P.length + i]?) h.heap
  simp only [List.getElem?_map] at h1
  rw [List.getElem?_append_right (by omega), Nat.add_sub_cancel_left, List.getElem?_map, hg] at h1
  exact Option.map_eq_some_iff.mp h1

theorem Behind.lasts {P : List Frame} {fs gs : FrameSet} (h : Behind P fs gs) (i : ℕ) :
    Spec.lastValues fs (P.length + i) = P.map (fun f => f.last.value) ++ Spec.lastValues gs i := by
  have e : ∀ l : List Frame, (l.map Frame.naked).map (fun f => f.last.value) = l.map (fun f => f.last.value) := by
    intro l; rw [List.map_map]; rfl
  unfold Spec.lastValues
  have h1 : (fs.heap.take (P.length + i + 1)).map Frame.naked = P ++ (gs.heap.take (i + 1)).map Frame.naked := by
    rw [List.map_take, h.heap, Nat.add_assoc, List.take_length_add_append, List.map_take]
  rw [← e (fs.heap.take _), ← e (gs.heap.take _), h1, List.map_append]

theorem lastN_diffs {n : ℕ} (a b : List ℚ) (h : n < b.length) :
    Spec.lastN n (Spec.diffs (a ++ b)) = Spec.lastN n (Spec.diffs b) := by
  induction a with
  | nil => rfl
  | cons x a ih =>
    rw [← ih]
    have hb : a ++ b ≠ [] := by intro h0; simp at h0; rw [h0.2] at h; simp at h
    obtain ⟨y, c, hc⟩ := List.exists_cons_of_ne_nil hb
    have hl : n + 1 ≤ (y :: c).length := by rw [← hc, List.length_append]; omega
    rw [List.cons_append, hc]
    have : Spec.diffs (x :: y :: c) = [fsub y x] ++ Spec.diffs (y :: c) := rfl
    rw [this, lastN_append]
    unfold Spec.diffs
    rw [List.length_zipWith]
    simp at hl ⊢
    omega

/-- A value that was always registered and is not restricted to an open market has tracked the ticks of its frame. -/
theorem Built.value_frame {u : Unit'} {q m : ℤ} {fs : FrameSet} {A : List AF} (hB : Built u q m fs A)
    (hm : 1 ≤ m) {r : String} {ind : Indicator} (hA : Always A r ind) {i : ℕ} {f : Frame}
    (hf : fs.heap[i]? = some f) : ∃ v, f.get r = some v ∧ v.ind = ind ∧ v.first = f.first ∧ v.high = f.high ∧
      v.low = f.low ∧ v.last = f.last := by
  obtain ⟨v, hv, h1, -, -⟩ := hB.value hm hA hf
  refine ⟨v, hv, h1, ?_⟩
  obtain ⟨-, -, a, ts, ha, hs, hsum⟩ := hB.value_core hm hf hv
  have hR := hB.rep hm
  have hcore := (hR.core i a f ha hf).sum
  have hmem : a ∈ A := List.mem_of_getElem? ha
  have hne : a.evs ≠ [] := by
    intro h0
    have := hcore.first
    rw [h0] at this; cases this
  rw [scan_const (hA.1 _ hmem), hA.2] at hs
  simp only [Bool.not_false, Bool.true_or, List.filter_true] at hs
  rw [if_neg hne] at hs
  simp only [Option.some.injEq, Prod.mk.injEq] at hs
  rw [← hs.2] at hsum
  exact hsum.unique hcore

end

end Estrade
