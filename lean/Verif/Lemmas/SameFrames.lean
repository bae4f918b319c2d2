import Verif.Lemmas.Grouping

/-!
# The frames of a set do not depend on its memory limit or its indicators
-/

set_option autoImplicit false
set_option linter.unusedSectionVars false

namespace Estrade

variable [Arith]

/-- A frame without links and indicators. -/
def Frame.naked (f : Frame) : Frame := { f with prev := none, next := none, inds := [] }

/-- All frames ever created are the same, up to links and indicators. -/
def SameFrames (fs fs' : FrameSet) : Prop := fs.heap.map Frame.naked = fs'.heap.map Frame.naked

theorem Rep.current_last {fs : FrameSet} {A : List AF} (hR : Rep fs A) (hm : 1 ≤ fs.maxFrames) :
    fs.current = fs.heap.getLast?.map (fun f => (fs.heap.length - 1, f)) := by
  rcases List.eq_nil_or_concat A with rfl | ⟨B, a, rfl⟩
  · have : fs.heap = [] := by rw [← List.length_eq_zero_iff, hR.len]; rfl
    rw [hR.current_none, this]; rfl
  · rw [List.concat_eq_append] at hR
    obtain ⟨f, hc, hf, -⟩ := hR.current hm
    have hl := hR.len
    simp only [List.length_append, List.length_singleton] at hl
    rw [hc, List.getLast?_eq_getElem?, hl, Nat.add_sub_cancel, hf]; rfl

theorem naked_get {f g : Frame} (h : f.naked = g.naked) : f.periodEnd = g.periodEnd ∧ f.nbTicks = g.nbTicks ∧
    f.last = g.last ∧ (∀ t, (f.track t).naked = (g.track t).naked) := by
  cases f; cases g
  simp only [Frame.naked, Frame.mk.injEq] at h
  obtain ⟨rfl, rfl, -, -, rfl, rfl, rfl, rfl, rfl, -⟩ := h
  refine ⟨rfl, rfl, rfl, fun t => ?_⟩
  rw [track_eq, track_eq]; rfl

theorem naked_inds {f : Frame} {x : Dict (Option IndVal)} : Frame.naked { f with inds := x } = f.naked := rfl

theorem map_naked_of_bare {l l' : List Frame} (h : ∀ i : ℕ, (l[i]?).map Frame.bare = (l'[i]?).map Frame.bare) :
    l.map Frame.naked = l'.map Frame.naked := by
  apply List.ext_getElem?
  intro i
  have e : ∀ o : Option Frame, o.map Frame.naked = (o.map Frame.bare).map Frame.naked := by
    intro o; cases o <;> rfl
  rw [List.getElem?_map, List.getElem?_map, e l[i]?, h i, ← e]

theorem same_create {u : Unit'} {q m m' : ℤ} (hm : 1 ≤ m) (hm' : 1 ≤ m') {fs fs' gs gs' : FrameSet} {A A' : List AF}
    (hB : Built u q m fs A) (hB' : Built u q m' gs A') (hS : SameFrames fs gs) {c c' : Ctx} {t : Tick} {ps : ℤ}
    {pe : Option ℤ} (h : fs.createFrame c t ps pe = .ok fs') (h' : gs.createFrame c' t ps pe = .ok gs') :
    SameFrames fs' gs' := by
  obtain ⟨f, hu, hb, -, -⟩ := createFrame_inv (hB.rep hm) (by rw [hB.fields.2.2]; exact hm) h
  obtain ⟨g, hv, hb', -, -⟩ := createFrame_inv (hB'.rep hm') (by rw [hB'.fields.2.2]; exact hm') h'
  unfold SameFrames at hS ⊢
  rw [map_naked_of_bare hb, map_naked_of_bare hb', List.map_append, List.map_append, hS]
  congr 1
  simp only [List.map_cons, List.map_nil, List.cons.injEq, and_true]
  rw [upsert_inds hu, upsert_inds hv]
  rfl

theorem same_last {fs gs : FrameSet} (hS : SameFrames fs gs) :
    (fs.heap.getLast? = none ∧ gs.heap.getLast? = none) ∨
    ∃ f g, fs.heap.getLast? = some f ∧ gs.heap.getLast? = some g ∧ f.naked = g.naked := by
  have := congrArg List.getLast? hS
  rw [List.getLast?_map, List.getLast?_map] at this
  rcases h1 : fs.heap.getLast? with _ | f <;> rcases h2 : gs.heap.getLast? with _ | g <;> rw [h1, h2] at this
  · exact .inl ⟨rfl, rfl⟩
  · cases this
  · cases this
  · exact .inr ⟨f, g, rfl, rfl, by simpa using this⟩

theorem same_add {u : Unit'} {q m m' : ℤ} (hm : 1 ≤ m) (hm' : 1 ≤ m') {fs fs' gs gs' : FrameSet} {A A' : List AF}
    (hB : Built u q m fs A) (hB' : Built u q m' gs A') (hS : SameFrames fs gs) {c c' : Ctx} {t : Tick}
    (h : fs.addToLast c t = .ok fs') (h' : gs.addToLast c' t = .ok gs') : SameFrames fs' gs' := by
  have hl := congrArg List.length hS
  rw [List.length_map, List.length_map] at hl
  unfold FrameSet.addToLast at h h'
  rw [(hB.rep hm).current_last (by rw [hB.fields.2.2]; exact hm)] at h
  rw [(hB'.rep hm').current_last (by rw [hB'.fields.2.2]; exact hm')] at h'
  rcases same_last hS with ⟨h1, h2⟩ | ⟨f, g, h1, h2, hn⟩
  · rw [h1] at h; rw [h2] at h'
    cases h; cases h'; exact hS
  · rw [h1] at h; rw [h2] at h'
    simp only [Option.map_some, bind, Except.bind] at h h'
    split at h
    · cases h
    split at h'
    · cases h'
    rename_i _ f' hf' _ g' hg'
    cases h; cases h'
    unfold SameFrames at hS ⊢
    simp only [List.map_set]
    have e1 : f'.naked = (f.track t).naked := by rw [upsert_inds hf']; rfl
    have e2 : g'.naked = (g.track t).naked := by rw [upsert_inds hg']; rfl
    rw [hS, hl, e1, e2, (naked_get hn).2.2.2 t]

theorem createFrame_built_fields {u : Unit'} {q m : ℤ} {fs : FrameSet} {A : List AF} (hB : Built u q m fs A) :
    fs.unit = u ∧ fs.qty = q := ⟨hB.fields.1, hB.fields.2.1⟩

theorem same_fill {u : Unit'} {q m m' : ℤ} (hm : 1 ≤ m) (hm' : 1 ≤ m') {c c' : Ctx} (hz : c.zone = c'.zone) {ps : ℤ}
    (fuel : ℕ) : ∀ (fs fs' gs gs' : FrameSet) (A A' : List AF), Built u q m fs A → Built u q m' gs A' →
    SameFrames fs gs → fillLoop c ps fuel fs = .ok fs' → fillLoop c' ps fuel gs = .ok gs' →
    SameFrames fs' gs' ∧ ∃ B B', Built u q m fs' B ∧ Built u q m' gs' B' := by
  induction fuel with
  | zero =>
    intro fs fs' gs gs' A A' hB hB' hS h h'
    rw [fillLoop] at h h'
    have e1 : fs' = fs := by
      split at h
      · cases h; rfl
      · split at h
        · cases h
        · split_ifs at h
          cases h; rfl
    have e2 : gs' = gs := by
      split at h'
      · cases h'; rfl
      · split at h'
        · cases h'
        · split_ifs at h'
          cases h'; rfl
    subst e1 e2
    exact ⟨hS, A, A', hB, hB'⟩
  | succ fuel ih =>
    intro fs fs' gs gs' A A' hB hB' hS h h'
    rw [fillLoop] at h h'
    rw [(hB.rep hm).current_last (by rw [hB.fields.2.2]; exact hm)] at h
    rw [(hB'.rep hm').current_last (by rw [hB'.fields.2.2]; exact hm')] at h'
    rcases same_last hS with ⟨h1, h2⟩ | ⟨f, g, h1, h2, hn⟩
    · rw [h1] at h; rw [h2] at h'
      cases h; cases h'; exact ⟨hS, A, A', hB, hB'⟩
    · rw [h1] at h; rw [h2] at h'
      obtain ⟨n1, n2, n3, -⟩ := naked_get hn
      simp only [Option.map_some, n1, n3, hB.fields.1, hB.fields.2.1] at h
      simp only [Option.map_some, hB'.fields.1, hB'.fields.2.1] at h'
      rcases hpe : g.periodEnd with _ | pe
      · rw [hpe] at h; cases h
      · rw [hpe] at h h'
        simp only at h h'
        split_ifs at h h'
        · simp only [bind, Except.bind] at h h'
          split at h
          · cases h
          split at h'
          · cases h'
          rename_i _ fs1 hf1 _ gs1 hg1
          rw [hz] at hf1
          exact ih fs1 fs' gs1 gs' _ _ (Built.create _ _ _ _ hB hf1) (Built.create _ _ _ _ hB' hg1)
            (same_create hm hm' hB hB' hS hf1 hg1) h h'
        · cases h; cases h'; exact ⟨hS, A, A', hB, hB'⟩

theorem same_step {u : Unit'} {q m m' : ℤ} (hm : 1 ≤ m) (hm' : 1 ≤ m') {fs fs' gs gs' : FrameSet} {A A' : List AF}
    (hB : Built u q m fs A) (hB' : Built u q m' gs A') (hS : SameFrames fs gs) {c : Ctx} {t : Tick}
    (h : fs.onNewTick c t = .ok fs') (h' : gs.onNewTick c t = .ok gs') : SameFrames fs' gs' := by
  have c1 := (hB.rep hm).current_last (by rw [hB.fields.2.2]; exact hm)
  have c2 := (hB'.rep hm').current_last (by rw [hB'.fields.2.2]; exact hm')
  have hcur : (fs.current = none ∧ gs.current = none) ∨
      ∃ i f g, fs.current = some (i, f) ∧ gs.current = some (i, g) ∧ f.naked = g.naked := by
    have hl := congrArg List.length hS
    rw [List.length_map, List.length_map] at hl
    rcases same_last hS with ⟨h1, h2⟩ | ⟨f, g, h1, h2, hn⟩
    · rw [c1, c2, h1, h2]; exact .inl ⟨rfl, rfl⟩
    · rw [c1, c2, h1, h2, hl]; exact .inr ⟨_, f, g, rfl, rfl, hn⟩
  unfold FrameSet.onNewTick at h h'
  rw [hB.fields.1] at h
  rw [hB'.fields.1] at h'
  by_cases hu : u = .tick
  · rw [if_pos hu] at h h'
    have hov : fs.overTick c t = gs.overTick c t := by
      unfold FrameSet.overTick
      rw [hB.fields.2.1, hB'.fields.2.1]
      rcases hcur with ⟨h1, h2⟩ | ⟨i, f, g, h1, h2, hn⟩
      · rw [h1, h2]
      · rw [h1, h2]
        simp only [(naked_get hn).2.1]
    rw [hov] at h
    split_ifs at h h'
    · exact same_create hm hm' hB hB' hS h h'
    · exact same_add hm hm' hB hB' hS h h'
  · rw [if_neg hu] at h h'
    have hov : fs.overTimed t = gs.overTimed t := by
      unfold FrameSet.overTimed
      rcases hcur with ⟨h1, h2⟩ | ⟨i, f, g, h1, h2, hn⟩
      · rw [h1, h2]
      · rw [h1, h2]
        simp only [(naked_get hn).1]
    rw [hov] at h
    generalize gs.overTimed t = o at h h'
    rcases o with e | b
    · cases h
    simp only [bind, Except.bind] at h h'
    cases b with
    | false =>
      simp only [Bool.false_eq_true, if_false] at h h'
      exact same_add hm hm' hB hB' hS h h'
    | true =>
      simp only [if_true] at h h'
      have hfuel : ∀ ps, fillFuel fs ps = fillFuel gs ps := by
        intro ps
        unfold fillFuel
        rcases hcur with ⟨h1, h2⟩ | ⟨i, f, g, h1, h2, hn⟩
        · rw [h1, h2]
        · rw [h1, h2]
          simp only [(naked_get hn).1]
      unfold FrameSet.createTimed at h h'
      rw [hB.fields.1, hB.fields.2.1] at h
      rw [hB'.fields.1, hB'.fields.2.1] at h'
      generalize frameStart u q t.dt.wall = o at h h'
      rcases o with e | ps
      · cases h
      simp only [bind, Except.bind, hfuel] at h h'
      split at h
      · cases h
      split at h'
      · cases h'
      rename_i _ fs1 hf1 _ gs1 hg1
      obtain ⟨hS1, B, B', hB1, hB1'⟩ := same_fill hm hm' rfl _ _ _ _ _ _ _ hB hB' hS hf1 hg1
      exact same_create hm hm' hB1 hB1' hS1 h h'

theorem feeds_nil {u : Unit'} {q m : ℤ} {fs : FrameSet} {h : List HEv} (hF : Feeds u q m fs h) (h0 : h = []) :
    fs.heap = [] := by
  induction hF with
  | new => rfl
  | ind i _ ih => rw [addIndicator_fields]; exact ih h0
  | tick c t _ _ _ => simp at h0

theorem feeds_snoc {u : Unit'} {q m : ℤ} {fs : FrameSet} {h0 : List HEv} (hF : Feeds u q m fs h0) {h : List HEv}
    {x : HEv} (he : h0 = h ++ [x]) : ∃ gs gs', Feeds u q m gs h ∧ gs.onNewTick x.ctx x.tick = .ok gs' ∧
      fs.heap = gs'.heap := by
  induction hF with
  | new => simp at he
  | ind i _ ih =>
    obtain ⟨gs, gs', h1, h2, h3⟩ := ih he
    exact ⟨gs, gs', h1, h2, by rw [addIndicator_fields]; exact h3⟩
  | tick c t hF hok _ =>
    obtain ⟨e1, e2⟩ := List.append_inj' he rfl
    subst e1
    simp only [List.cons.injEq, and_true] at e2
    subst e2
    exact ⟨_, _, hF, hok, rfl⟩

/-- Two frame sets of the same unit and quantity that were given the same ticks have the same frames, whatever
their memory limits and indicators. -/
theorem feeds_same {u : Unit'} {q m m' : ℤ} (hm : 1 ≤ m) (hm' : 1 ≤ m') (h : List HEv) :
    ∀ (h' : List HEv), h.map (fun e => (e.ctx, e.tick)) = h'.map (fun e => (e.ctx, e.tick)) →
    ∀ (fs gs : FrameSet), Feeds u q m fs h → Feeds u q m' gs h' → SameFrames fs gs := by
  induction h using List.reverseRecOn with
  | nil =>
    intro h' he fs gs hF hF'
    have : h' = [] := by simpa using he.symm
    unfold SameFrames
    rw [feeds_nil hF rfl, feeds_nil hF' this]
  | append_singleton h x ih =>
    intro h' he fs gs hF hF'
    rcases List.eq_nil_or_concat h' with rfl | ⟨h1, y, rfl⟩
    · simp at he
    rw [List.concat_eq_append] at he hF'
    rw [List.map_append, List.map_append] at he
    obtain ⟨e1, e2⟩ := List.append_inj' he rfl
    simp only [List.map_cons, List.map_nil, List.cons.injEq, and_true, Prod.mk.injEq] at e2
    obtain ⟨a, a', g1, g2, g3⟩ := feeds_snoc hF rfl
    obtain ⟨b, b', k1, k2, k3⟩ := feeds_snoc hF' rfl
    have hS := ih h1 e1 a b g1 k1
    obtain ⟨A, hB, -⟩ := feeds_built hm g1
    obtain ⟨A', hB', -⟩ := feeds_built hm' k1
    rw [← e2.1, ← e2.2] at k2
    have := same_step hm hm' hB hB' hS g2 k2
    unfold SameFrames at this ⊢
    rw [g3, k3]; exact this

end Estrade
