import Verif.SharedInd
import Verif.Lemmas.Dicts
import Verif.Demo

/-!
# C79: indicator objects shared between frame sets
-/

set_option autoImplicit false
set_option linter.style.haveILetI false
set_option linter.unusedSectionVars false

namespace Estrade

section
variable [Arith]

/-- Spec: a call as frame set `k` sees it when every frame set has its own copy of each indicator. -/
def Spec.alone (objs : List Indicator) (k : ℕ) (fs : FrameSet) : BCmd → FrameSet × Option PyErr
  | .add k' j => if k' = k then match objs[j]? with
      | none => (fs, some .attr)
      | some ind => fs.addIndicator ind
    else (fs, none)
  | .feed k' c t => if k' = k then fs.feed c t else (fs, none)

/-- Spec: frame set `k` after the calls, with copies of its own. -/
def Spec.aloneRun (objs : List Indicator) (k : ℕ) (fs : FrameSet) (l : List BCmd) : FrameSet :=
  l.foldl (fun fs x => (Spec.alone objs k fs x).1) fs

/-- Spec: a bench of new frame sets and indicators. -/
def Spec.NewBench (b : Bench) : Prop := ∀ x ∈ b.sets, x.1.indicators = [] ∧ x.2 = []

/-- Spec: no RSI object is added to frame sets with different unit quantities. -/
def Spec.SameQuantity (b : Bench) (l : List BCmd) : Prop :=
  ∀ k k' j p rp ref mo x x', BCmd.add k j ∈ l → BCmd.add k' j ∈ l → b.objs[j]? = some ⟨ref, .rsi p rp, mo⟩ →
    b.sets[k]? = some x → b.sets[k']? = some x' → x.1.qty = x'.1.qty

/-- Spec: what can be seen of frame set `k`. -/
def Spec.seenOf (b : Bench) (k : ℕ) : Option FrameSet :=
  (b.sets[k]?).map (fun x => { x.1 with indicators := resolve b.objs x.2 })

/-! ## Feeding keeps the parameters -/

/-- Same parameters. -/
structure SameConf (a b : FrameSet) : Prop where
  unit : a.unit = b.unit
  qty : a.qty = b.qty
  max : a.maxFrames = b.maxFrames
  inds : a.indicators = b.indicators

theorem SameConf.refl (a : FrameSet) : SameConf a a := ⟨rfl, rfl, rfl, rfl⟩

theorem SameConf.trans {a b c : FrameSet} (h : SameConf a b) (h' : SameConf b c) : SameConf a c :=
  ⟨h.unit.trans h'.unit, h.qty.trans h'.qty, h.max.trans h'.max, h.inds.trans h'.inds⟩

theorem feedCreate_conf (fs : FrameSet) (c : Ctx) (t : Tick) (ps : ℤ) (pe : Option ℤ) :
    SameConf (fs.feedCreate c t ps pe).1 fs := by
  unfold FrameSet.feedCreate
  simp only
  split
  · exact .refl _
  · exact ⟨rfl, rfl, rfl, rfl⟩

theorem feedFill_conf (c : Ctx) (ps : ℤ) (n : ℕ) : ∀ fs : FrameSet, SameConf (feedFill c ps n fs).1 fs := by
  induction n with
  | zero =>
    intro fs
    unfold feedFill
    split
    · exact .refl _
    · split
      · exact .refl _
      · split <;> exact .refl _
  | succ n ih =>
    intro fs
    unfold feedFill
    rcases fs.current with _ | ⟨i, f⟩
    · exact .refl _
    · simp only
      rcases f.periodEnd with _ | pe
      · exact .refl _
      · simp only
        split
        · have h := feedCreate_conf fs c f.last pe (some (frameEnd c.zone fs.unit fs.qty pe))
          rcases hr : fs.feedCreate c f.last pe (some (frameEnd c.zone fs.unit fs.qty pe)) with ⟨fs', _ | e⟩
          · rw [hr] at h; exact (ih fs').trans h
          · rw [hr] at h; exact h
        · exact .refl _

theorem feedTimed_conf (fs : FrameSet) (c : Ctx) (t : Tick) : SameConf (fs.feedTimed c t).1 fs := by
  unfold FrameSet.feedTimed
  rcases frameStart fs.unit fs.qty t.dt.wall with e | ps
  · exact .refl _
  · have h := feedFill_conf c ps (fillFuel fs ps) fs
    simp only
    rcases hr : feedFill c ps (fillFuel fs ps) fs with ⟨fs', _ | e⟩
    · rw [hr] at h; exact (feedCreate_conf _ _ _ _ _).trans h
    · rw [hr] at h; exact h

theorem feedLast_conf (fs : FrameSet) (c : Ctx) (t : Tick) : SameConf (fs.feedLast c t).1 fs := by
  unfold FrameSet.feedLast
  split
  · exact .refl _
  · exact ⟨rfl, rfl, rfl, rfl⟩

theorem feed_conf (fs : FrameSet) (c : Ctx) (t : Tick) : SameConf (fs.feed c t).1 fs := by
  unfold FrameSet.feed
  split
  · split
    · exact feedCreate_conf _ _ _ _ _
    · exact feedLast_conf _ _ _
  · split
    · exact .refl _
    · split
      · exact feedTimed_conf _ _ _
      · exact feedLast_conf _ _ _

/-! ## The simulation -/

theorem addIndicator_eq (fs : FrameSet) (ind : Indicator) :
    fs.addIndicator ind =
      ({ fs with indicators := fs.indicators.set ind.ref (ind.attached fs.qty) }, ind.attachErr fs) := by
  unfold FrameSet.addIndicator Indicator.attached Indicator.attachErr
  rcases ind with ⟨ref, kind, mo⟩
  cases kind <;> rfl

theorem attached_attached (ind : Indicator) (q q' : ℤ) : (ind.attached q).attached q' = ind.attached q' := by
  rcases ind with ⟨ref, kind, mo⟩
  cases kind <;> rfl

theorem attached_ref (ind : Indicator) (q : ℤ) : (ind.attached q).ref = ind.ref := by
  rcases ind with ⟨ref, kind, mo⟩
  cases kind <;> rfl

theorem attachErr_attached (ind : Indicator) (q : ℤ) (fs : FrameSet) : (ind.attached q).attachErr fs = ind.attachErr fs := by
  rcases ind with ⟨ref, kind, mo⟩
  cases kind <;> rfl

/-- Dict entries commute with a map of the values. -/
theorem attached_congr (ind : Indicator) (q q' : ℤ) (h : ∀ p rp, ind.kind = .rsi p rp → q = q') :
    ind.attached q = ind.attached q' := by
  rcases ind with ⟨ref, kind, mo⟩
  cases kind with
  | rsi p rp => rw [h p rp rfl]
  | _ => rfl

theorem mem_set {α : Type} {d : Dict α} {r : String} {v : α} {p : String × α} (h : p ∈ d.set r v) : p ∈ d ∨ p = (r, v) := by
  unfold Dict.set at h
  split at h
  · obtain ⟨x, hx, rfl⟩ := List.mem_map.mp h
    split
    · exact .inr rfl
    · exact .inl hx
  · rcases List.mem_append.mp h with h | h
    · exact .inl h
    · exact .inr (by simpa using h)

theorem resolve_map (objs : List Indicator) (d : Dict ℕ) (g : ℕ → Indicator) (h : ∀ p ∈ d, objs[p.2]? = some (g p.2)) :
    resolve objs d = d.map (fun p => (p.1, g p.2)) := by
  unfold resolve
  rw [← List.filterMap_eq_map]
  refine List.filterMap_congr fun p hp => ?_
  rw [h p hp]
  rfl

theorem resolve_set (objs : List Indicator) (d : Dict ℕ) (r : String) (j : ℕ) (g : ℕ → Indicator)
    (h : ∀ p ∈ d, objs[p.2]? = some (g p.2)) (hj : objs[j]? = some (g j)) :
    resolve objs (d.set r j) = (resolve objs d).set r (g j) := by
  rw [resolve_map objs d g h, Dict.set_map g d r j]
  refine resolve_map objs _ g fun p hp => ?_
  rcases mem_set hp with hp | rfl
  · exact h p hp
  · exact hj

/-- State of frame set `k` on the bench, compared with the frame set on its own. -/
structure SetInv (b0 b : Bench) (l : List BCmd) (k : ℕ) (x0 : FrameSet × Dict ℕ) (fs : FrameSet) (d : Dict ℕ) : Prop where
  at_k : b.sets[k]? = some (fs, d)
  qty : fs.qty = x0.1.qty
  max : fs.maxFrames = x0.1.maxFrames
  objs : ∀ p ∈ d, BCmd.add k p.2 ∈ l ∧ ∃ ind, b0.objs[p.2]? = some ind ∧ b.objs[p.2]? = some (ind.attached x0.1.qty)
  same : { fs with indicators := resolve b.objs d } = Spec.aloneRun b0.objs k x0.1 l

structure BenchInv (b0 b : Bench) (l : List BCmd) : Prop where
  none_obj : ∀ j : ℕ, b0.objs[j]? = none → b.objs[j]? = none
  obj : ∀ (j : ℕ) ind, b0.objs[j]? = some ind → ∃ ind', b.objs[j]? = some ind' ∧ (ind' = ind ∨ ∃ q, ind' = ind.attached q)
  none_set : ∀ k : ℕ, b0.sets[k]? = none → b.sets[k]? = none
  sets : ∀ (k : ℕ) x0, b0.sets[k]? = some x0 → ∃ fs d, SetInv b0 b l k x0 fs d

theorem aloneRun_snoc (objs : List Indicator) (k : ℕ) (fs : FrameSet) (l : List BCmd) (x : BCmd) :
    Spec.aloneRun objs k fs (l ++ [x]) = (Spec.alone objs k (Spec.aloneRun objs k fs l) x).1 := by
  unfold Spec.aloneRun
  rw [List.foldl_append]; rfl

theorem run_snoc (b : Bench) (l : List BCmd) (x : BCmd) : b.run (l ++ [x]) = ((b.run l).exec x).1 := by
  unfold Bench.run
  rw [List.foldl_append]; rfl

theorem Spec.SameQuantity.of_snoc {b : Bench} {l : List BCmd} {x : BCmd} (h : Spec.SameQuantity b (l ++ [x])) :
    Spec.SameQuantity b l :=
  fun k k' j p rp ref mo y y' h1 h2 => h k k' j p rp ref mo y y' (by simp [h1]) (by simp [h2])

theorem SetInv.keep {b0 b : Bench} {l : List BCmd} {k : ℕ} {x0 : FrameSet × Dict ℕ} {fs : FrameSet} {d : Dict ℕ}
    (h : SetInv b0 b l k x0 fs d) (x : BCmd) (b' : Bench) (h1 : b'.sets[k]? = b.sets[k]?) (h2 : b'.objs = b.objs)
    (h3 : ∀ fs, (Spec.alone b0.objs k fs x).1 = fs) : SetInv b0 b' (l ++ [x]) k x0 fs d := by
  refine ⟨by rw [h1]; exact h.at_k, h.qty, h.max, ?_, ?_⟩
  · intro p hp
    obtain ⟨a, ind, e1, e2⟩ := h.objs p hp
    exact ⟨by simp [a], ind, e1, by rw [h2]; exact e2⟩
  · rw [aloneRun_snoc, h3, h2]; exact h.same

theorem benchInv_feed {b0 b : Bench} {l : List BCmd} (h : BenchInv b0 b l) (k : ℕ) (c : Ctx) (t : Tick) :
    BenchInv b0 (b.feed k c t).1 (l ++ [.feed k c t]) := by
  unfold Bench.feed
  rcases hb : b.sets[k]? with _ | ⟨fs, d⟩
  · simp only
    refine ⟨h.none_obj, h.obj, h.none_set, fun k' x0 hk' => ?_⟩
    obtain ⟨fs', d', hs⟩ := h.sets k' x0 hk'
    refine ⟨fs', d', hs.keep _ _ rfl rfl fun fs => ?_⟩
    have : k ≠ k' := by rintro rfl; rw [hs.at_k] at hb; cases hb
    simp [Spec.alone, this]
  · simp only
    refine ⟨h.none_obj, h.obj, fun k' hk' => ?_, fun k' x0 hk' => ?_⟩
    · have := h.none_set k' hk'
      have hne : k ≠ k' := by rintro rfl; rw [hb] at this; cases this
      simp only
      rw [List.getElem?_set_ne hne]; exact this
    · obtain ⟨fs', d', hs⟩ := h.sets k' x0 hk'
      by_cases hk : k = k'
      · subst hk
        have he : fs' = fs ∧ d' = d := by
          have := hs.at_k
          rw [hb] at this
          injection this with this
          injection this with e1 e2
          exact ⟨e1.symm, e2.symm⟩
        obtain ⟨rfl, rfl⟩ := he
        have hc := feed_conf { fs' with indicators := resolve b.objs d' } c t
        refine ⟨_, d', ⟨?_, hc.qty.trans hs.qty, hc.max.trans hs.max, ?_, ?_⟩⟩
        · exact List.getElem?_set_self (List.getElem?_eq_some_iff.mp hb).1
        · intro p hp
          obtain ⟨a, ind, e1, e2⟩ := hs.objs p hp
          exact ⟨by simp [a], ind, e1, e2⟩
        · rw [aloneRun_snoc, ← hs.same]
          simp only [Spec.alone, if_true]
          have := hc.inds
          generalize FrameSet.feed { fs' with indicators := resolve b.objs d' } c t = r at this ⊢
          obtain ⟨⟨u, q, m, hp, fr, ix⟩, e⟩ := r
          simp only at this ⊢
          rw [this]
      · refine ⟨fs', d', hs.keep _ _ (List.getElem?_set_ne hk) rfl fun fs => ?_⟩
        simp [Spec.alone, hk]

theorem resolve_congr {objs objs' : List Indicator} {d : Dict ℕ} (h : ∀ p ∈ d, objs'[p.2]? = objs[p.2]?) :
    resolve objs' d = resolve objs d := by
  unfold resolve
  exact List.filterMap_congr fun p hp => by rw [h p hp]

theorem benchInv_add {b0 b : Bench} {l : List BCmd} (h : BenchInv b0 b l) (k j : ℕ)
    (hq : Spec.SameQuantity b0 (l ++ [.add k j])) : BenchInv b0 (b.add k j).1 (l ++ [.add k j]) := by
  unfold Bench.add
  rcases hb : b.sets[k]? with _ | ⟨fs, d⟩
  · simp only
    refine ⟨h.none_obj, h.obj, h.none_set, fun k' x0 hk' => ?_⟩
    obtain ⟨fs', d', hs⟩ := h.sets k' x0 hk'
    refine ⟨fs', d', hs.keep _ _ rfl rfl fun fs => ?_⟩
    have : k ≠ k' := by rintro rfl; rw [hs.at_k] at hb; cases hb
    simp [Spec.alone, this]
  rcases ho : b.objs[j]? with _ | ind'
  · simp only
    refine ⟨h.none_obj, h.obj, h.none_set, fun k' x0 hk' => ?_⟩
    obtain ⟨fs', d', hs⟩ := h.sets k' x0 hk'
    refine ⟨fs', d', hs.keep _ _ rfl rfl fun fs => ?_⟩
    have : b0.objs[j]? = none := by
      rcases h0 : b0.objs[j]? with _ | ind
      · rfl
      · obtain ⟨x, hx, -⟩ := h.obj j ind h0
        rw [ho] at hx; cases hx
    unfold Spec.alone
    simp only [this]
    split <;> rfl
  simp only
  obtain ⟨ind, h0⟩ : ∃ ind, b0.objs[j]? = some ind := by
    rcases h0 : b0.objs[j]? with _ | ind
    · rw [h.none_obj j h0] at ho; cases ho
    · exact ⟨ind, rfl⟩
  obtain ⟨y0, hy0⟩ : ∃ y0, b0.sets[k]? = some y0 := by
    rcases h1 : b0.sets[k]? with _ | y0
    · rw [h.none_set k h1] at hb; cases hb
    · exact ⟨y0, rfl⟩
  have hk : SetInv b0 b l k y0 fs d := by
    obtain ⟨fs', d', hs⟩ := h.sets k y0 hy0
    have he : fs' = fs ∧ d' = d := by
      have := hs.at_k
      rw [hb] at this
      injection this with this
      injection this with e1 e2
      exact ⟨e1.symm, e2.symm⟩
    obtain ⟨rfl, rfl⟩ := he
    exact hs
  have hind : ind'.attached fs.qty = ind.attached fs.qty ∧ ind'.ref = ind.ref := by
    obtain ⟨x, hx, hc⟩ := h.obj j ind h0
    rw [ho] at hx
    injection hx with hx
    subst hx
    rcases hc with rfl | ⟨q, rfl⟩
    · exact ⟨rfl, rfl⟩
    · exact ⟨attached_attached _ _ _, attached_ref _ _⟩
  have hlt : j < b.objs.length := (List.getElem?_eq_some_iff.mp ho).1
  have hklt : k < b.sets.length := (List.getElem?_eq_some_iff.mp hb).1
  rw [hind.1, hind.2]
  have hself : (b.objs.set j (ind.attached fs.qty))[j]? = some (ind.attached fs.qty) := List.getElem?_set_self hlt
  have hold : ∀ (k' : ℕ) x0 fs' d', b0.sets[k']? = some x0 → SetInv b0 b l k' x0 fs' d' →
      ∀ p ∈ d', (b.objs.set j (ind.attached fs.qty))[p.2]? = b.objs[p.2]? := by
    intro k' x0 fs' d' hk' hs p hp
    obtain ⟨a, i0, e1, e2⟩ := hs.objs p hp
    by_cases hj : j = p.2
    · subst hj
      rw [h0] at e1
      injection e1 with e1
      subst e1
      rw [hself, e2, hk.qty]
      congr 1
      refine attached_congr _ _ _ fun pp rp hr => ?_
      obtain ⟨ref, kind, mo⟩ := ind
      simp only at hr
      subst hr
      exact hq k k' p.2 pp rp ref mo y0 x0 (by simp) (by simp [a]) h0 hy0 hk'
    · rw [List.getElem?_set_ne hj]
  refine ⟨?_, ?_, ?_, ?_⟩
  · intro j' hj'
    have := h.none_obj j' hj'
    have hne : j ≠ j' := by rintro rfl; rw [ho] at this; cases this
    simp only
    rw [List.getElem?_set_ne hne]; exact this
  · intro j' ind1 hj'
    simp only
    by_cases hj : j = j'
    · subst hj
      rw [h0] at hj'
      injection hj' with hj'
      subst hj'
      exact ⟨_, hself, .inr ⟨_, rfl⟩⟩
    · rw [List.getElem?_set_ne hj]; exact h.obj j' ind1 hj'
  · intro k' hk'
    have := h.none_set k' hk'
    have hne : k ≠ k' := by rintro rfl; rw [hb] at this; cases this
    simp only
    rw [List.getElem?_set_ne hne]; exact this
  · intro k' x0 hk'
    by_cases hkk : k = k'
    · subst hkk
      rw [hy0] at hk'
      injection hk' with hk'
      subst hk'
      have hm := hold k y0 fs d hy0 hk
      refine ⟨fs, d.set ind.ref j, ⟨List.getElem?_set_self hklt, hk.qty, hk.max, ?_, ?_⟩⟩
      · intro p hp
        rcases mem_set hp with hp' | rfl
        · obtain ⟨a, i0, e1, e2⟩ := hk.objs p hp'
          exact ⟨by simp [a], i0, e1, by rw [← e2]; exact hm p hp'⟩
        · exact ⟨by simp, ind, h0, by rw [← hk.qty]; exact hself⟩
      · rw [aloneRun_snoc, ← hk.same]
        simp only [Spec.alone, if_true, h0, addIndicator_eq]
        congr 1
        rw [resolve_set _ d ind.ref j (fun i => ((b.objs.set j (ind.attached fs.qty))[i]?).getD ind) ?_ ?_,
          resolve_congr hm, hself]
        · rfl
        · intro p hp
          obtain ⟨a, i0, e1, e2⟩ := hk.objs p hp
          rw [hm p hp, e2]; rfl
        · rw [hself]; rfl
    · obtain ⟨fs', d', hs⟩ := h.sets k' x0 hk'
      have hm := hold k' x0 fs' d' hk' hs
      refine ⟨fs', d', ⟨?_, hs.qty, hs.max, ?_, ?_⟩⟩
      · simp only
        rw [List.getElem?_set_ne hkk]; exact hs.at_k
      · intro p hp
        obtain ⟨a, i0, e1, e2⟩ := hs.objs p hp
        exact ⟨by simp [a], i0, e1, by rw [← e2]; exact hm p hp⟩
      · rw [aloneRun_snoc, ← hs.same]
        simp only [Spec.alone, if_neg hkk]
        rw [resolve_congr hm]

theorem benchInv_run {b0 : Bench} (h0 : Spec.NewBench b0) (l : List BCmd) (hq : Spec.SameQuantity b0 l) :
    BenchInv b0 (b0.run l) l := by
  induction l using List.reverseRecOn with
  | nil =>
    refine ⟨fun _ h => h, fun j ind h => ⟨ind, h, .inl rfl⟩, fun _ h => h, fun k x0 h => ⟨x0.1, x0.2, h, rfl, rfl, ?_, ?_⟩⟩
    · intro p hp
      rw [(h0 x0 (List.mem_of_getElem? h)).2] at hp; cases hp
    · have := h0 x0 (List.mem_of_getElem? h)
      obtain ⟨⟨u, q, m, hp, fr, ix⟩, d⟩ := x0
      obtain ⟨rfl, rfl⟩ := this
      rfl
  | append_singleton l x ih =>
    rw [run_snoc]
    cases x with
    | add k j => exact benchInv_add (ih hq.of_snoc) k j hq
    | feed k c t => exact benchInv_feed (ih hq.of_snoc) k c t

/-! ## The theorems -/

/-- C79 as stated: sharing is not observable. -/
def Spec.C79 : Prop := ∀ (b : Bench), Spec.NewBench b → ∀ (l : List BCmd) (k : ℕ) x, b.sets[k]? = some x →
  Spec.seenOf (b.run l) k = some (Spec.aloneRun b.objs k x.1 l)

/-- C79 when no RSI object is added to frame sets of different unit quantities (any sharing of other indicators is
allowed): every frame set is as if it had its own copies.  Missing for the full statement: RSI objects added to frame
sets of different quantities (`C79_false`). -/
theorem C79_separate_partial {b : Bench} (hb : Spec.NewBench b) (l : List BCmd) (hq : Spec.SameQuantity b l) (k : ℕ)
    (x : FrameSet × Dict ℕ) (hx : b.sets[k]? = some x) :
    Spec.seenOf (b.run l) k = some (Spec.aloneRun b.objs k x.1 l) := by
  obtain ⟨fs, d, h⟩ := (benchInv_run hb l hq).sets k x hx
  unfold Spec.seenOf
  rw [h.at_k]
  exact congrArg some h.same

/-- C79, exceptions: under the same condition a call raises what it raises with copies. -/
theorem C79_exceptions_partial {b : Bench} (hb : Spec.NewBench b) (l : List BCmd) (y : BCmd)
    (hq : Spec.SameQuantity b (l ++ [y])) (k : ℕ) (x : FrameSet × Dict ℕ) (hx : b.sets[k]? = some x)
    (hy : (∃ j, y = .add k j) ∨ ∃ c t, y = .feed k c t) :
    ((b.run l).exec y).2 = (Spec.alone b.objs k (Spec.aloneRun b.objs k x.1 l) y).2 := by
  have hi := benchInv_run hb l hq.of_snoc
  obtain ⟨fs, d, h⟩ := hi.sets k x hx
  rcases hy with ⟨j, rfl⟩ | ⟨c, t, rfl⟩
  · unfold Bench.exec Bench.add Spec.alone
    simp only [h.at_k, if_true]
    rcases h0 : b.objs[j]? with _ | ind
    · rw [hi.none_obj j h0]
    · obtain ⟨ind', h1, h2⟩ := hi.obj j ind h0
      rw [h1, ← h.same]
      simp only [addIndicator_eq]
      have e : ∀ i : Indicator, i.attachErr { fs with indicators := resolve (b.run l).objs d } = i.attachErr fs := fun i => by
        unfold Indicator.attachErr; rfl
      rw [e]
      rcases h2 with rfl | ⟨q, rfl⟩
      · rfl
      · exact attachErr_attached _ _ _
  · unfold Bench.exec Bench.feed Spec.alone
    simp only [h.at_k, if_true, h.same]

end

/-! ## Concrete cases -/

namespace Demo

/-- One RSI of one period and one average, frame sets of 1, 1 and 2 ticks. -/
def bench : Bench :=
  ⟨[⟨"rsi", .rsi 1 none, false⟩, ⟨"sma", .sma 3, false⟩],
   [(⟨.tick, 1, 10, [], [], []⟩, []), (⟨.tick, 1, 10, [], [], []⟩, []), (⟨.tick, 2, 10, [], [], []⟩, [])]⟩

/-- Two ticks for the first frame set. -/
def benchTicks : List BCmd := [.feed 0 ⟨Zone.utc, none⟩ (tk 480 10 12), .feed 0 ⟨Zone.utc, none⟩ (tk 481 20 22)]

theorem bench_new : Spec.NewBench bench := by
  intro x hx
  simp only [bench, List.mem_cons, List.not_mem_nil, or_false] at hx
  rcases hx with rfl | rfl | rfl <;> exact ⟨rfl, rfl⟩

/-- RSI value of the current frame of frame set `k`. -/
def benchRsi [Arith] (b : Bench) (k : ℕ) : Option (Option ℚ) := do
  let fs ← Spec.seenOf b k
  let f ← fs.current
  let v ← f.2.get "rsi"
  some v.rsi

end Demo

/-- C79 is false: a second `add_indicator` of the same RSI object, on a frame set of quantity 2, changes the number of
periods under the first frame set, whose next frame has no RSI value. -/
theorem C79_false : ¬ @Spec.C79 Arith.exact := by
  letI := Arith.exact
  intro h
  have := h Demo.bench Demo.bench_new ([.add 0 0, .add 2 0] ++ Demo.benchTicks) 0 _ rfl
  have h2 := congrArg (fun o : Option FrameSet => o.map (fun fs => fs.current.map (fun f => (f.2.get "rsi").map IndVal.rsi))) this
  revert h2
  decide +kernel

/-- The value with and without the second registration. -/
example : letI := Arith.exact
    Demo.benchRsi (Demo.bench.run ([.add 0 0] ++ Demo.benchTicks)) 0 = some (some 100) ∧
    Demo.benchRsi (Demo.bench.run ([.add 0 0, .add 2 0] ++ Demo.benchTicks)) 0 = some none := by
  letI := Arith.exact
  decide +kernel

/-- C79_separate_partial: both objects on two frame sets of quantity 1, the average also on the third. -/
example : Spec.SameQuantity Demo.bench ([.add 0 0, .add 0 1, .add 1 0, .add 1 1, .add 2 1] ++ Demo.benchTicks) := by
  intro k k' j p rp ref mo x x' h1 h2 h3 h4 h5
  simp only [Demo.benchTicks, List.mem_append, List.mem_cons, List.not_mem_nil, or_false, BCmd.add.injEq, reduceCtorEq]
    at h1 h2
  rcases h1 with ⟨rfl, rfl⟩ | ⟨rfl, rfl⟩ | ⟨rfl, rfl⟩ | ⟨rfl, rfl⟩ | ⟨rfl, rfl⟩ <;>
    rcases h2 with ⟨rfl, h⟩ | ⟨rfl, h⟩ | ⟨rfl, h⟩ | ⟨rfl, h⟩ | ⟨rfl, h⟩ <;>
      simp_all [Demo.bench]

example : letI := Arith.exact
    let b := Demo.bench.run ([.add 0 0, .add 0 1, .add 1 0, .add 1 1, .add 2 1] ++ Demo.benchTicks)
    Demo.benchRsi b 0 = some (some 100) ∧ b.sets.map (fun x => x.2) = [[("rsi", 0), ("sma", 1)], [("rsi", 0), ("sma", 1)],
      [("sma", 1)]] := by
  letI := Arith.exact
  decide +kernel

/-- A registration that raises (not enough frames in memory) has changed the object all the same. -/
example : letI := Arith.exact
    let b0 : Bench := ⟨Demo.bench.objs, Demo.bench.sets ++ [(⟨.tick, 20, 10, [], [], []⟩, [])]⟩
    let r := (b0.run [.add 0 0]).exec (.add 3 0)
    r.2 = some .indicator ∧ Demo.benchRsi (r.1.run Demo.benchTicks) 0 = some none := by
  letI := Arith.exact
  decide +kernel

end Estrade
