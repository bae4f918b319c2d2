import Verif.Lemmas.Retune
import Verif.Demo

/-!
# C101: attributes of a frame set assigned while it runs
-/

set_option linter.unusedSectionVars false
set_option linter.style.haveILetI false
set_option autoImplicit false

namespace Estrade

section
variable [Arith]

/-! ## Specification -/

/-- Spec: no indicators, limits of at least one frame. -/
def Spec.NoInds (l : List TuneCmd) : Prop := (∀ ind, .indicator ind ∉ l) ∧ ∀ m, .memory m ∈ l → 1 ≤ m

/-- Spec: the same program, but with limit `M` each time. -/
def Spec.roomy (M : ℤ) : TuneCmd → TuneCmd
  | .memory _ => .memory M
  | x => x

/-- Spec: the same program, but with unit `v` each time. -/
def Spec.mute (v : Unit') : TuneCmd → TuneCmd
  | .unit _ => .unit v
  | x => x

/-- Spec: the last limit assigned. -/
def Spec.limit (m : ℤ) (l : List TuneCmd) : ℤ := l.foldl (fun m x => match x with | .memory m' => m' | _ => m) m

/-- Spec: the last quantity assigned. -/
def Spec.quantity (q : ℤ) (l : List TuneCmd) : ℤ := l.foldl (fun q x => match x with | .quantity q' => q' | _ => q) q

/-- Spec: what the frames in memory show. -/
def Spec.shown (s : Tuned) : List (Snap Tick) := s.fs.view.map Frame.snap

/-- Spec: the last frame in memory got `t`, and its period contains it. -/
def Spec.Inside (s : Tuned) (t : Tick) : Prop :=
  ∃ f pe, (Spec.shown s).getLast? = some f ∧ f.last = t ∧ f.start ≤ t.dt.wall ∧ f.stop = some pe ∧ t.dt.wall < pe

/-! ## Proofs -/

theorem tuned_snoc (s : Tuned) : ∀ (l : List TuneCmd) (x : TuneCmd),
    s.run (l ++ [x]) = (((s.run l).1.exec x).1, (s.run l).2 ++ [((s.run l).1.exec x).2]) := by
  intro l
  induction l generalizing s with
  | nil => intro x; rfl
  | cons y l ih =>
    intro x
    simp only [List.cons_append, Tuned.run, ih]

theorem plain_snoc {l : List TuneCmd} {x : TuneCmd} (h : Spec.NoInds (l ++ [x])) : Spec.NoInds l ∧ Spec.NoInds [x] := by
  refine ⟨⟨fun ind hi => h.1 ind (by simp [hi]), fun m hm => h.2 m (by simp [hm])⟩,
    ⟨fun ind hi => h.1 ind ?_, fun m hm => h.2 m ?_⟩⟩
  · exact List.mem_append_right _ hi
  · exact List.mem_append_right _ hm

theorem plain_cons {l : List TuneCmd} {x : TuneCmd} (h : Spec.NoInds (x :: l)) : Spec.NoInds l ∧ Spec.NoInds [x] := by
  refine ⟨⟨fun ind hi => h.1 ind (by simp [hi]), fun m hm => h.2 m (by simp [hm])⟩,
    ⟨fun ind hi => h.1 ind ?_, fun m hm => h.2 m ?_⟩⟩
  · exact List.mem_cons.mpr (.inl (List.mem_singleton.mp hi))
  · exact List.mem_cons.mpr (.inl (List.mem_singleton.mp hm))

theorem fill_tidy (step : ℤ) (c : Ctx) (ps : ℤ) : ∀ (n : ℕ) (a : FrameSet), Youngest a → Youngest (tunedFill step c ps n a).1 ∧
    (tunedFill step c ps n a).1.unit = a.unit ∧ (tunedFill step c ps n a).1.qty = a.qty := by
  intro n
  induction n with
  | zero =>
    intro a h
    unfold tunedFill
    rcases a.current with _ | ⟨i, f⟩
    · exact ⟨h, rfl, rfl⟩
    · rcases hp : f.periodEnd with _ | pe
      · simp only [hp]; exact ⟨h, trivial, trivial⟩
      · simp only [hp]
        split_ifs <;> exact ⟨h, rfl, rfl⟩
  | succ n ih =>
    intro a h
    unfold tunedFill
    rcases a.current with _ | ⟨i, f⟩
    · exact ⟨h, rfl, rfl⟩
    · rcases hp : f.periodEnd with _ | pe
      · simp only [hp]; exact ⟨h, trivial, trivial⟩
      · simp only [hp]
        split_ifs
        · obtain ⟨k1, -, k3, k4, k5, -⟩ := h.create c f.last pe (some (frameEnd c.zone a.unit step pe))
          generalize a.feedCreate c f.last pe (some (frameEnd c.zone a.unit step pe)) = r at *
          obtain ⟨a', err⟩ := r
          simp only at k1 k3 k4 k5
          subst k3
          obtain ⟨z1, z2, z3⟩ := ih a' k1
          exact ⟨z1, z2.trans k4, z3.trans k5⟩
        · exact ⟨h, rfl, rfl⟩

theorem Youngest.feed (step : ℤ) {a : FrameSet} (h : Youngest a) (c : Ctx) (t : Tick) :
    Youngest (tunedFeed step a c t).1 ∧ (tunedFeed step a c t).1.unit = a.unit ∧ (tunedFeed step a c t).1.qty = a.qty := by
  have hc : ∀ {a : FrameSet}, Youngest a → ∀ ps pe, Youngest (a.feedCreate c t ps pe).1 ∧ (a.feedCreate c t ps pe).1.unit = a.unit ∧
      (a.feedCreate c t ps pe).1.qty = a.qty := by
    intro a h ps pe
    obtain ⟨k1, -, -, k4, k5, -⟩ := h.create c t ps pe
    exact ⟨k1, k4, k5⟩
  have hl : Youngest (a.feedLast c t).1 ∧ (a.feedLast c t).1.unit = a.unit ∧ (a.feedLast c t).1.qty = a.qty := by
    obtain ⟨k1, -, k3, k4, -⟩ := h.add c t
    exact ⟨k1, k3, k4⟩
  unfold tunedFeed
  split_ifs
  · exact hc h _ _
  · exact hl
  · rcases a.overTimed t with e | over
    · exact ⟨h, rfl, rfl⟩
    · simp only
      split_ifs
      · unfold tunedTimed
        rcases frameStart a.unit a.qty t.dt.wall with e | ps
        · exact ⟨h, rfl, rfl⟩
        · simp only
          obtain ⟨k1, k2, k3⟩ := fill_tidy step c ps (fillFuel a ps) a h
          generalize tunedFill step c ps (fillFuel a ps) a = r at *
          obtain ⟨a', err⟩ := r
          rcases err with _ | e
          · obtain ⟨z1, z2, z3⟩ := hc k1 ps (some (frameEnd c.zone a.unit step ps))
            exact ⟨z1, z2.trans k2, z3.trans k3⟩
          · exact ⟨k1, k2, k3⟩
      · exact hl

theorem Youngest.exec {s : Tuned} (h : Youngest s.fs) {x : TuneCmd} (hx : Spec.NoInds [x]) :
    Youngest (s.exec x).1.fs ∧ (s.exec x).1.fs.unit = s.fs.unit ∧ (s.exec x).1.step = s.step ∧
      (s.exec x).1.fs.qty = Spec.quantity s.fs.qty [x] ∧ (s.exec x).1.fs.maxFrames = Spec.limit s.fs.maxFrames [x] := by
  cases x with
  | tick c t =>
    obtain ⟨k1, k2, k3⟩ := h.feed s.step c t
    exact ⟨k1, k2, rfl, k3, (feed_made s.step h.ind h.lim c t).limit⟩
  | quantity q => exact ⟨⟨h.ind, h.lim, h.part⟩, rfl, rfl, rfl, rfl⟩
  | memory m => exact ⟨⟨h.ind, hx.2 m (by simp), h.part⟩, rfl, rfl, rfl, rfl⟩
  | unit u => exact ⟨h, rfl, rfl, rfl, rfl⟩
  | indicator ind => exact absurd (by simp) (hx.1 ind)

theorem Youngest.run {s : Tuned} : ∀ (l : List TuneCmd), Youngest s.fs → Spec.NoInds l →
    Youngest (s.run l).1.fs ∧ (s.run l).1.fs.unit = s.fs.unit ∧ (s.run l).1.step = s.step ∧
      (s.run l).1.fs.qty = Spec.quantity s.fs.qty l ∧ (s.run l).1.fs.maxFrames = Spec.limit s.fs.maxFrames l := by
  intro l
  induction l using List.reverseRecOn with
  | nil => intro h _; exact ⟨h, rfl, rfl, rfl, rfl⟩
  | append_singleton l x ih =>
    intro h hl
    obtain ⟨p1, p2⟩ := plain_snoc hl
    obtain ⟨i1, i2, i3, i4, i5⟩ := ih h p1
    obtain ⟨j1, j2, j3, j4, j5⟩ := i1.exec p2
    rw [tuned_snoc]
    refine ⟨j1, j2.trans i2, j3.trans i3, j4.trans ?_, j5.trans ?_⟩
    · rw [i4]; unfold Spec.quantity; rw [List.foldl_append]
    · rw [i5]; unfold Spec.limit; rw [List.foldl_append]

theorem Tuned.new_eq {u : Unit'} {q m : ℤ} {s : Tuned} (h : Tuned.new u q m = .ok s) : s = ⟨⟨u, q, m, [], [], []⟩, q, u⟩ := by
  unfold Tuned.new FrameSet.new at h
  rcases hc : checkTimeframe u q with e | x
  · rw [hc] at h; cases h
  · rw [hc] at h; cases h; rfl

theorem tidy_new {u : Unit'} {q m : ℤ} (hm : 1 ≤ m) : Youngest ⟨u, q, m, [], [], []⟩ := ⟨rfl, hm, 0, rfl, .inr ⟨rfl, rfl⟩⟩

/-! ## The limit of frames in memory -/

theorem exec_grows {s : Tuned} (h : Youngest s.fs) {x : TuneCmd} (hx : Spec.NoInds [x]) : s.fs.heap.length ≤ (s.exec x).1.fs.heap.length := by
  cases x with
  | tick c t => exact (feed_made s.step h.ind h.lim c t).le
  | indicator ind => exact absurd (by simp) (hx.1 ind)
  | _ => exact le_rfl

theorem run_grows : ∀ (l : List TuneCmd) (s : Tuned), Youngest s.fs → Spec.NoInds l → s.fs.heap.length ≤ (s.run l).1.fs.heap.length := by
  intro l
  induction l with
  | nil => intro s _ _; exact le_rfl
  | cons x l ih =>
    intro s h hl
    obtain ⟨p1, p2⟩ := plain_cons hl
    exact (exec_grows h p2).trans (ih _ (h.exec p2).1 p1)

theorem run_trails {M : ℤ} : ∀ (l : List TuneCmd) (s s' : Tuned), Youngest s.fs → Spec.NoInds l → s.step = s'.step → Trails s.fs s'.fs →
    s'.fs.maxFrames = M → ((s.run l).1.fs.heap.length : ℤ) ≤ M →
    (s.run l).2 = (s'.run (l.map (Spec.roomy M))).2 ∧ Trails (s.run l).1.fs (s'.run (l.map (Spec.roomy M))).1.fs := by
  intro l
  induction l with
  | nil => intro s s' _ _ _ h _ _; exact ⟨rfl, h⟩
  | cons x l ih =>
    intro s s' ht hl hs h hM hb
    obtain ⟨p1, p2⟩ := plain_cons hl
    have h1 := ht.exec p2
    have h2 := run_grows l _ h1.1 p1
    have hb' : (((s.exec x).1.run l).1.fs.heap.length : ℤ) ≤ M := hb
    have key : (s.exec x).2 = (s'.exec (Spec.roomy M x)).2 ∧ Trails (s.exec x).1.fs (s'.exec (Spec.roomy M x)).1.fs ∧
        (s'.exec (Spec.roomy M x)).1.fs.maxFrames = M ∧ (s.exec x).1.step = (s'.exec (Spec.roomy M x)).1.step := by
      cases x with
      | tick c t =>
        have hsmall : ((tunedFeed s.step s.fs c t).1.heap.length : ℤ) ≤ s'.fs.maxFrames := by
          rw [hM]
          have : ((s.exec (.tick c t)).1.fs.heap.length : ℤ) ≤ M := by omega
          exact this
        obtain ⟨k1, k2, k3⟩ := h.feed s.step ht.lim c t hsmall
        simp only [Spec.roomy, Tuned.exec]
        rw [← hs]
        exact ⟨k1, k2, k3.trans hM, rfl⟩
      | quantity q => exact ⟨rfl, ⟨h.unit, rfl, h.ia, h.ib, h.heap, h.all, h.part⟩, hM, hs⟩
      | memory m => exact ⟨rfl, ⟨h.unit, h.qty, h.ia, h.ib, h.heap, h.all, h.part⟩, rfl, hs⟩
      | unit u => exact ⟨rfl, h, hM, hs⟩
      | indicator ind => exact absurd (by simp) (p2.1 ind)
    obtain ⟨k1, k2, k3, k4⟩ := key
    obtain ⟨z1, z2⟩ := ih _ _ h1.1 p1 k4 k2 k3 hb'
    refine ⟨?_, z2⟩
    simp only [List.map_cons, Tuned.run]
    rw [k1, z1]

theorem Trails.shown {a b : FrameSet} (h : Trails a b) : ∃ d, a.view.map Frame.snap = (b.view.map Frame.snap).drop d ∧
    (d < (b.view.map Frame.snap).length ∨ b.view.map Frame.snap = [] ∧ d = 0) ∧ b.view.length = b.heap.length := by
  obtain ⟨d, h1, h2⟩ := h.part
  have hd : d ≤ b.heap.length := by
    rw [h.all] at h2
    rcases h2 with h2 | ⟨-, h2⟩
    · simp at h2; omega
    · omega
  have eb : b.view = b.heap := by
    unfold FrameSet.view
    have := view_range b.heap 0 (by omega)
    rw [List.drop_zero, List.drop_zero] at this
    rw [h.all, this]
  have ea : a.view = a.heap.drop d := by
    unfold FrameSet.view
    rw [h1, h.all, ← h.len, view_range _ _ (by rw [h.len]; exact hd)]
  rw [ea, eb]
  refine ⟨d, by rw [List.map_drop, h.heap], ?_, rfl⟩
  rcases h2 with h2 | ⟨h2, h3⟩
  · left; rw [h.all] at h2; simpa using h2
  · right
    refine ⟨?_, h3⟩
    rw [h.all] at h2
    have : b.heap.length = 0 := by simpa using congrArg List.length h2
    rw [List.length_eq_zero_iff.mp this]; rfl

theorem new_trails {u : Unit'} {q m M : ℤ} : Trails ⟨u, q, m, [], [], []⟩ ⟨u, q, M, [], [], []⟩ :=
  ⟨rfl, rfl, rfl, rfl, rfl, rfl, 0, rfl, .inr ⟨rfl, rfl⟩⟩

/-- C101 (memory): assignments of the limit, whenever they come and however they change it, have no effect but on how many of the last
frames are there: the frames in memory are the last ones (at least one) of a frame set that forgets none, and the exceptions are the same. -/
theorem C101_memory (u : Unit') (q m : ℤ) (s : Tuned) (hs : Tuned.new u q m = .ok s) (hm : 1 ≤ m) (l : List TuneCmd) (hl : Spec.NoInds l) :
    ∃ M₀, ∀ M s', M₀ ≤ M → Tuned.new u q M = .ok s' →
      (s.run l).2 = (s'.run (l.map (Spec.roomy M))).2 ∧
      ∃ d, Spec.shown (s.run l).1 = (Spec.shown (s'.run (l.map (Spec.roomy M))).1).drop d ∧
        (d < (Spec.shown (s'.run (l.map (Spec.roomy M))).1).length ∨ Spec.shown (s'.run (l.map (Spec.roomy M))).1 = []) := by
  have e := Tuned.new_eq hs
  subst e
  refine ⟨((Tuned.run ⟨⟨u, q, m, [], [], []⟩, q, u⟩ l).1.fs.heap.length : ℤ), ?_⟩
  intro M s' hM hs'
  have e := Tuned.new_eq hs'
  subst e
  obtain ⟨k1, k2⟩ := run_trails (M := M) l ⟨⟨u, q, m, [], [], []⟩, q, u⟩ ⟨⟨u, q, M, [], [], []⟩, q, u⟩ (tidy_new hm) hl rfl new_trails rfl hM
  obtain ⟨d, d1, d2, -⟩ := k2.shown
  exact ⟨k1, d, d1, d2.imp_right And.left⟩

/-- C101 (how many): a tick that makes no frame leaves the number of frames in memory as it is, also if a lower limit was assigned; a tick
that makes some brings it to the limit in force, or to all there are if they are fewer (the frames dropped before do not come back). -/
theorem C101_count (u : Unit') (q m : ℤ) (s : Tuned) (hs : Tuned.new u q m = .ok s) (hm : 1 ≤ m) (l : List TuneCmd) (hl : Spec.NoInds l)
    (c : Ctx) (t : Tick) :
    ∃ M₀, ∀ M s', M₀ ≤ M → Tuned.new u q M = .ok s' →
      ∃ n, (Spec.shown (s'.run ((l ++ [TuneCmd.tick c t]).map (Spec.roomy M))).1).length = (Spec.shown (s'.run (l.map (Spec.roomy M))).1).length + n ∧
        (Spec.shown (s.run (l ++ [TuneCmd.tick c t])).1).length =
          if n = 0 then (Spec.shown (s.run l).1).length else min ((Spec.shown (s.run l).1).length + n) (Spec.limit m l).toNat := by
  have e := Tuned.new_eq hs
  subst e
  have hl' : Spec.NoInds (l ++ [TuneCmd.tick c t]) := by
    refine ⟨fun ind hi => ?_, fun k hk => ?_⟩
    · simp only [List.mem_append, List.mem_singleton, reduceCtorEq, or_false] at hi
      exact hl.1 ind hi
    · simp only [List.mem_append, List.mem_singleton, reduceCtorEq, or_false] at hk
      exact hl.2 k hk
  refine ⟨((Tuned.run ⟨⟨u, q, m, [], [], []⟩, q, u⟩ (l ++ [TuneCmd.tick c t])).1.fs.heap.length : ℤ), ?_⟩
  intro M s' hM hs'
  have e := Tuned.new_eq hs'
  subst e
  obtain ⟨w1, w2, w3, w4, w5⟩ := Youngest.run (s := ⟨⟨u, q, m, [], [], []⟩, q, u⟩) l (tidy_new hm) hl
  have made := feed_made q w1.ind w1.lim c t
  have hM1 : ((Tuned.run ⟨⟨u, q, m, [], [], []⟩, q, u⟩ l).1.fs.heap.length : ℤ) ≤ M := by
    rw [tuned_snoc] at hM
    have := exec_grows w1 (x := TuneCmd.tick c t) ⟨by simp, by simp⟩
    simp only at hM this
    omega
  obtain ⟨-, k2⟩ := run_trails (M := M) l ⟨⟨u, q, m, [], [], []⟩, q, u⟩ ⟨⟨u, q, M, [], [], []⟩, q, u⟩ (tidy_new hm) hl rfl new_trails rfl hM1
  obtain ⟨-, j2⟩ := run_trails (M := M) (l ++ [TuneCmd.tick c t]) ⟨⟨u, q, m, [], [], []⟩, q, u⟩ ⟨⟨u, q, M, [], [], []⟩, q, u⟩ (tidy_new hm) hl' rfl new_trails rfl hM
  obtain ⟨-, -, -, v1⟩ := k2.shown
  obtain ⟨-, -, -, v2⟩ := j2.shown
  have t1 := w1.view.choose_spec.2.2
  have w1' := (Youngest.run (s := ⟨⟨u, q, m, [], [], []⟩, q, u⟩) _ (tidy_new hm) hl').1
  have t2 := w1'.view.choose_spec.2.2
  have e1 := k2.len
  have e2 := j2.len
  have hf : (Tuned.run ⟨⟨u, q, m, [], [], []⟩, q, u⟩ (l ++ [TuneCmd.tick c t])).1.fs =
      (tunedFeed q (Tuned.run ⟨⟨u, q, m, [], [], []⟩, q, u⟩ l).1.fs c t).1 := by
    rw [tuned_snoc]
    simp only [Tuned.exec, w3]
  rw [← hf] at made
  have m1 := made.le
  have m2 := made.kept
  rw [w5] at m2
  simp only [Spec.shown, List.length_map]
  refine ⟨(Tuned.run ⟨⟨u, q, M, [], [], []⟩, q, u⟩ ((l ++ [TuneCmd.tick c t]).map (Spec.roomy M))).1.fs.view.length -
    (Tuned.run ⟨⟨u, q, M, [], [], []⟩, q, u⟩ (l.map (Spec.roomy M))).1.fs.view.length, by omega, ?_⟩
  rw [t1, t2, m2]
  by_cases hz : (Tuned.run ⟨⟨u, q, m, [], [], []⟩, q, u⟩ (l ++ [TuneCmd.tick c t])).1.fs.heap.length =
      (Tuned.run ⟨⟨u, q, m, [], [], []⟩, q, u⟩ l).1.fs.heap.length
  · rw [if_pos hz, if_pos (by omega)]
  · rw [if_neg hz, if_neg (by omega)]
    congr 2
    omega

/-! ## The unit and the quantity -/

/-- C101 (as before): as long as the quantity is the one given to the constructor, the frame set does what `FrameSet` says, with whatever
indicators. -/
theorem C101_same (s : Tuned) (h : s.step = s.fs.qty) (c : Ctx) (t : Tick) :
    (s.exec (.tick c t)).1.fs = (s.fs.feed c t).1 ∧ (s.exec (.tick c t)).2 = (s.fs.feed c t).2 := by
  have hf : ∀ (ps : ℤ) (n : ℕ) (fs : FrameSet), fs.qty = s.step → tunedFill s.step c ps n fs = feedFill c ps n fs := by
    intro ps n
    induction n with
    | zero =>
      intro fs he
      unfold tunedFill feedFill
      rfl
    | succ n ih =>
      intro fs he
      unfold tunedFill feedFill
      rcases fs.current with _ | ⟨i, f⟩
      · rfl
      · rcases hp : f.periodEnd with _ | pe
        · simp only [hp]
        · simp only [hp, ← he]
          split_ifs
          · have hq : (fs.feedCreate c f.last pe (some (frameEnd c.zone fs.unit fs.qty pe))).1.qty = fs.qty := by
              unfold FrameSet.feedCreate
              simp only
              split <;> rfl
            generalize fs.feedCreate c f.last pe (some (frameEnd c.zone fs.unit fs.qty pe)) = r at *
            obtain ⟨fs', err⟩ := r
            rcases err with _ | e
            · simp only at hq ⊢
              rw [he]
              exact ih fs' (hq.trans he)
            · rfl
          · rfl
  have : tunedFeed s.step s.fs c t = s.fs.feed c t := by
    unfold tunedFeed FrameSet.feed tunedTimed FrameSet.feedTimed
    have hf' : ∀ ps n, tunedFill s.fs.qty c ps n s.fs = feedFill c ps n s.fs := fun ps n => by rw [← h]; exact hf ps n s.fs h.symm
    simp only [h, hf']
    rfl
  simp only [Tuned.exec, this, and_self]

/-- C101 (unit): assigning `unit` has no effect on the frames and on the exceptions. -/
theorem C101_unit (v : Unit') : ∀ (l : List TuneCmd) (s s' : Tuned), s.fs = s'.fs → s.step = s'.step →
    (s.run l).1.fs = (s'.run (l.map (Spec.mute v))).1.fs ∧ (s.run l).2 = (s'.run (l.map (Spec.mute v))).2 := by
  intro l
  induction l with
  | nil => intro s s' h _; exact ⟨h, rfl⟩
  | cons x l ih =>
    intro s s' h h'
    have key : (s.exec x).1.fs = (s'.exec (Spec.mute v x)).1.fs ∧ (s.exec x).1.step = (s'.exec (Spec.mute v x)).1.step ∧
        (s.exec x).2 = (s'.exec (Spec.mute v x)).2 := by
      cases x <;> simp only [Tuned.exec, Spec.mute, h, h', and_self]
    obtain ⟨k1, k2, k3⟩ := key
    obtain ⟨z1, z2⟩ := ih _ _ k1 k2
    refine ⟨z1, ?_⟩
    simp only [List.map_cons, Tuned.run]
    rw [k3, z2]

theorem shown_last {s : Tuned} (h : Youngest s.fs) {pre : List (Snap Tick)} {f : Snap Tick} (e : s.fs.hist = pre ++ [f]) :
    (Spec.shown s).getLast? = some f := by
  obtain ⟨d, h1, h2, -⟩ := h.view
  unfold Spec.shown
  rw [h1, List.getLast?_drop]
  rcases h2 with h2 | ⟨h2, -⟩
  · rw [if_neg (by omega), e]; simp
  · rw [h2] at e; simp at e

/-- What one tick does to a frame set of time periods whose quantity in force is at most the one in `_timedelta`. -/
theorem feed_inside {step : ℤ} {a : FrameSet} (h : Youngest a) (ha : Spec.Accepted a.unit a.qty) (hq : a.qty ≤ step) {c : Ctx}
    (hz : ∀ x, x ≤ c.zone.resolve x) {t : Tick} (hy : 1 ≤ yearOf t.dt.wall)
    (hstop : ∀ pre f, a.hist = pre ++ [f] → ∃ pe, f.stop = some pe) :
    ((tunedFeed step a c t).2 = some .value ∧ (tunedFeed step a c t).1 = a ∧ a.unit = .year ∧ yearOf t.dt.wall < a.qty) ∨
    ((tunedFeed step a c t).2 = none ∧ ∃ pre f pe, (tunedFeed step a c t).1.hist = pre ++ [f] ∧ f.last = t ∧ f.stop = some pe ∧ t.dt.wall < pe ∧
      (f.start ≤ t.dt.wall ∨ ∃ pre₀ f₀, a.hist = pre₀ ++ [f₀] ∧ f.start = f₀.start)) := by
  have hu : a.unit ≠ .tick := ha.2.2
  have hstep : 0 < step := lt_of_lt_of_le ha.2.1 hq
  have hnew : ∀ a', Youngest a' → a'.unit = a.unit → ∀ ps, frameStart a.unit a.qty t.dt.wall = .ok ps →
      (a'.feedCreate c t ps (some (frameEnd c.zone a.unit step ps))).2 = none ∧
      ∃ pre f pe, (a'.feedCreate c t ps (some (frameEnd c.zone a.unit step ps))).1.hist = pre ++ [f] ∧ f.last = t ∧ f.stop = some pe ∧ t.dt.wall < pe ∧
      (f.start ≤ t.dt.wall ∨ ∃ pre₀ f₀, a.hist = pre₀ ++ [f₀] ∧ f.start = f₀.start) := by
    intro a' h' _ ps hps
    have hr : Spec.InRange a.unit a.qty t.dt.wall := by
      refine ⟨hy, fun hyr => ?_⟩
      by_contra hc
      have := (C03_frame_start_raises_iff a.unit a.qty t.dt.wall ha hy .value).mpr ⟨rfl, hyr, by omega⟩
      rw [hps] at this
      cases this
    obtain ⟨s, s1, s2, s3⟩ := C03_frame_brackets Zone.utc (fun x => le_rfl) a.unit a.qty t.dt.wall ha hr
    rw [hps] at s1
    cases s1
    obtain ⟨-, k2, k3, -⟩ := h'.create c t ps (some (frameEnd c.zone a.unit step ps))
    refine ⟨k3, _, _, _, k2, rfl, rfl, ?_, .inl s2⟩
    unfold frameEnd at s3 ⊢
    rw [if_neg hu] at s3 ⊢
    exact s3.trans_le ((shiftUnit_mono a.unit hq ps).trans (hz _))
  unfold tunedFeed
  rw [if_neg hu]
  have hcur : a.overTimed t = .ok true ∧ a.current = none ∨
      ∃ pre f pe, a.hist = pre ++ [f] ∧ f.stop = some pe ∧ a.overTimed t = .ok (decide (pe ≤ t.dt.wall)) := by
    rcases h.current with ⟨h1, h2⟩ | ⟨pre, f, h1, h2⟩
    · left; exact ⟨by unfold FrameSet.overTimed; rw [h1], h1⟩
    · right
      have e : a.hist = pre.map Frame.snap ++ [f.snap] := by rw [FrameSet.hist, h1]; simp
      obtain ⟨pe, hpe⟩ := hstop _ _ e
      refine ⟨_, _, pe, e, hpe, ?_⟩
      have : f.periodEnd = some pe := hpe
      unfold FrameSet.overTimed
      rw [h2]
      simp only [this]
  have herr : ∀ e, frameStart a.unit a.qty t.dt.wall = .error e → e = .value ∧ a.unit = .year ∧ yearOf t.dt.wall < a.qty :=
    fun e he => (C03_frame_start_raises_iff a.unit a.qty t.dt.wall ha hy e).mp he
  rcases hcur with ⟨ho, hc⟩ | ⟨pre, f, pe, e, hs, ho⟩
  · rw [ho]
    simp only [if_true]
    unfold tunedTimed
    rcases hps : frameStart a.unit a.qty t.dt.wall with er | ps
    · obtain ⟨x1, x2, x3⟩ := herr er hps
      left
      rw [x1]
      exact ⟨rfl, rfl, x2, x3⟩
    · right
      have hf : ∀ n, tunedFill step c ps n a = (a, none) := by
        intro n
        cases n <;> (unfold tunedFill; rw [hc])
      simp only [hf]
      exact hnew a h rfl ps hps
  · rw [ho]
    by_cases hlt : pe ≤ t.dt.wall
    · simp only [hlt, decide_true, if_true]
      unfold tunedTimed
      rcases hps : frameStart a.unit a.qty t.dt.wall with er | ps
      · obtain ⟨x1, x2, x3⟩ := herr er hps
        left
        rw [x1]
        exact ⟨rfl, rfl, x2, x3⟩
      · right
        have hfuel : fillFuel a ps = (ps - pe).toNat := by
          obtain ⟨g, g1, g2⟩ := h.stop e
          have : g.periodEnd = some pe := by rw [← hs, ← g2]; rfl
          unfold fillFuel
          rw [g1]
          simp only [this]
        obtain ⟨k1, k2, k3, k4⟩ := Youngest.fill hstep hz ps (fillFuel a ps) a pre f pe h hu e hs (by omega)
        simp only
        generalize tunedFill step c ps (fillFuel a ps) a = r at *
        obtain ⟨a', err⟩ := r
        simp only at k1 k2 k3
        subst k1
        exact hnew a' k2 k3 ps hps
    · simp only [hlt, decide_false]
      right
      obtain ⟨-, k2, -, -, -, k6⟩ := h.add c t
      refine ⟨k2, pre, f.take t, pe, k6 _ _ e, rfl, hs, by omega, .inr ⟨pre, f, e, rfl⟩⟩

/-- Spec: the ticks of the program have their datetimes in years Python has, and their zones move imaginary datetimes forward. -/
def Spec.Sane (l : List TuneCmd) : Prop := ∀ c t, .tick c t ∈ l → (∀ x, x ≤ c.zone.resolve x) ∧ 1 ≤ yearOf t.dt.wall

/-- Spec: the ticks come in order. -/
def Spec.TicksOrdered (l : List TuneCmd) : Prop := l.Pairwise (fun x y => ∀ c t c' t', x = .tick c t → y = .tick c' t' → t.dt.wall ≤ t'.dt.wall)

/-- Spec, the full claim: whatever quantities are assigned, provided the constructor accepts them, each tick goes to a frame whose period
contains it (or raises, as the constructor's own quantity would, for frames of years before year 1), and the periods of frames in memory do not
overlap. -/
def Spec.C101 : Prop := ∀ (u : Unit') (q m : ℤ) (s : Tuned) (l : List TuneCmd) (c : Ctx) (t : Tick), Tuned.new u q m = .ok s → 1 ≤ m →
  Spec.Accepted u q → Spec.NoInds l → Spec.Sane (l ++ [.tick c t]) → Spec.TicksOrdered (l ++ [.tick c t]) → (∀ q', .quantity q' ∈ l → Spec.Accepted u q') →
  (((s.run l).1.exec (.tick c t)).2 = some .value ∧ u = .year ∧ yearOf t.dt.wall < Spec.quantity q l ∨
    ((s.run l).1.exec (.tick c t)).2 = none ∧ Spec.Inside ((s.run l).1.exec (.tick c t)).1 t) ∧
  (Spec.shown ((s.run l).1.exec (.tick c t)).1).Pairwise (fun f g => ∃ pe, f.stop = some pe ∧ pe ≤ g.start)

/-- The frames of a run: the last one has an end and does not start after all ticks so far. -/
theorem run_held {u : Unit'} {q m : ℤ} (hm : 1 ≤ m) (ha : Spec.Accepted u q) : ∀ (l : List TuneCmd), Spec.NoInds l → Spec.Sane l →
    (∀ q', .quantity q' ∈ l → Spec.Accepted u q' ∧ q' ≤ q) →
    (Spec.Accepted u (Spec.quantity q l) ∧ Spec.quantity q l ≤ q) ∧
    ∀ pre f, (Tuned.run ⟨⟨u, q, m, [], [], []⟩, q, u⟩ l).1.fs.hist = pre ++ [f] →
      (∃ pe, f.stop = some pe) ∧ ∃ c t, TuneCmd.tick c t ∈ l ∧ f.start ≤ t.dt.wall := by
  intro l
  induction l using List.reverseRecOn with
  | nil =>
    intro _ _ _
    refine ⟨⟨ha, le_rfl⟩, ?_⟩
    intro pre f e
    simp [Tuned.run, FrameSet.hist] at e
  | append_singleton l x ih =>
    intro hl hsa hqs
    obtain ⟨p1, p2⟩ := plain_snoc hl
    obtain ⟨⟨i1, i2⟩, i3⟩ := ih p1 (fun c t h => hsa c t (by simp [h])) (fun q' h => hqs q' (by simp [h]))
    obtain ⟨w1, w2, w3, w4, -⟩ := Youngest.run (s := ⟨⟨u, q, m, [], [], []⟩, q, u⟩) l (tidy_new hm) p1
    simp only at w2 w3 w4
    have hmem : ∀ pre f, (Tuned.run ⟨⟨u, q, m, [], [], []⟩, q, u⟩ l).1.fs.hist = pre ++ [f] →
        (∃ pe, f.stop = some pe) ∧ ∃ c t, TuneCmd.tick c t ∈ l ++ [x] ∧ f.start ≤ t.dt.wall := by
      intro pre f e
      obtain ⟨j1, c, t, j2, j3⟩ := i3 pre f e
      exact ⟨j1, c, t, by simp [j2], j3⟩
    have hqty : Spec.quantity q (l ++ [x]) = Spec.quantity (Spec.quantity q l) [x] := by
      unfold Spec.quantity; rw [List.foldl_append]
    rw [tuned_snoc, hqty]
    cases x with
    | tick c t =>
      refine ⟨⟨i1, i2⟩, ?_⟩
      obtain ⟨z1, z2⟩ := hsa c t (by simp)
      have i1' : Spec.Accepted (Tuned.run ⟨⟨u, q, m, [], [], []⟩, q, u⟩ l).1.fs.unit (Tuned.run ⟨⟨u, q, m, [], [], []⟩, q, u⟩ l).1.fs.qty := by
        rw [w2, w4]; exact i1
      intro pre f e
      simp only [Tuned.exec] at e
      rw [w3] at e
      rcases feed_inside (step := q) w1 i1' (by rw [w4]; exact i2) z1 z2 (fun pre f e => (i3 pre f e).1) with ⟨-, k2, -⟩ | ⟨-, pre', f', pe, k1, k2, k3, k4, k5⟩
      · rw [k2] at e; exact hmem pre f e
      · rw [k1] at e
        obtain ⟨e1, e2⟩ := List.append_inj' e rfl
        have e3 := List.singleton_inj.mp e2
        subst e3
        refine ⟨⟨pe, k3⟩, ?_⟩
        rcases k5 with k5 | ⟨pre₀, f₀, k5, k6⟩
        · exact ⟨c, t, by simp, k5⟩
        · obtain ⟨-, c', t', j2, j3⟩ := i3 _ _ k5
          exact ⟨c', t', by simp [j2], by rw [k6]; exact j3⟩
    | quantity q' => exact ⟨hqs q' (by simp), hmem⟩
    | memory m' => exact ⟨⟨i1, i2⟩, hmem⟩
    | unit u' => exact ⟨⟨i1, i2⟩, hmem⟩
    | indicator ind => exact absurd (by simp) (p2.1 ind)

/-- C101 (partial: quantities assigned are at most the constructor's; no claim about overlaps): each tick goes to a frame whose period contains
it, or raises ValueError as a frame of years would have to start before year 1. -/
theorem C101_inside_partial (u : Unit') (q m : ℤ) (s : Tuned) (l : List TuneCmd) (c : Ctx) (t : Tick) (hs : Tuned.new u q m = .ok s) (hm : 1 ≤ m)
    (ha : Spec.Accepted u q) (hl : Spec.NoInds l) (hsa : Spec.Sane (l ++ [.tick c t])) (ho : Spec.TicksOrdered (l ++ [.tick c t]))
    (hqs : ∀ q', .quantity q' ∈ l → Spec.Accepted u q' ∧ q' ≤ q) :
    ((s.run l).1.exec (.tick c t)).2 = some .value ∧ u = .year ∧ yearOf t.dt.wall < Spec.quantity q l ∨
    ((s.run l).1.exec (.tick c t)).2 = none ∧ Spec.Inside ((s.run l).1.exec (.tick c t)).1 t := by
  have e := Tuned.new_eq hs
  subst e
  obtain ⟨⟨i1, i2⟩, i3⟩ := run_held hm ha l hl (fun c t h => hsa c t (by simp [h])) hqs
  obtain ⟨w1, w2, w3, w4, -⟩ := Youngest.run (s := ⟨⟨u, q, m, [], [], []⟩, q, u⟩) l (tidy_new hm) hl
  simp only at w2 w3 w4
  obtain ⟨z1, z2⟩ := hsa c t (by simp)
  have hw := (w1.exec (x := .tick c t) ⟨by simp, by simp⟩).1
  have i1' : Spec.Accepted (Tuned.run ⟨⟨u, q, m, [], [], []⟩, q, u⟩ l).1.fs.unit (Tuned.run ⟨⟨u, q, m, [], [], []⟩, q, u⟩ l).1.fs.qty := by
    rw [w2, w4]; exact i1
  have hstep : ∀ s : Tuned, (s.exec (.tick c t)).2 = (tunedFeed s.step s.fs c t).2 := fun _ => rfl
  rcases feed_inside (step := q) w1 i1' (by rw [w4]; exact i2) z1 z2 (fun pre f e => (i3 pre f e).1) with ⟨k1, -, k3, k4⟩ | ⟨k0, pre', f', pe, k1, k2, k3, k4, k5⟩
  · left
    rw [hstep, w3]
    rw [w2] at k3
    rw [w4] at k4
    exact ⟨k1, k3, k4⟩
  · right
    rw [hstep, w3]
    refine ⟨k0, f', pe, ?_, k2, ?_, k3, k4⟩
    · apply shown_last hw
      simp only [Tuned.exec]
      rw [w3]
      exact k1
    · rcases k5 with k5 | ⟨pre₀, f₀, k5, k6⟩
      · exact k5
      · obtain ⟨-, c', t', j2, j3⟩ := i3 _ _ k5
        rw [k6]
        refine j3.trans ?_
        have := List.pairwise_append.mp ho
        exact this.2.2 _ j2 _ (by simp) c' t' c t rfl rfl

/-! ## Frames of ticks -/

/-- C101 (frames of ticks): with the quantities in force between `a` and `b`, no frame gets more than `b` ticks (or one), and, if no tick is of a
later day than the epic's last one, a frame is left only with at least `a`. -/
theorem C101_ticks (q m a b : ℤ) (s : Tuned) (hs : Tuned.new .tick q m = .ok s) (hm : 1 ≤ m) (l : List TuneCmd) (hl : Spec.NoInds l)
    (hq : a ≤ q ∧ q ≤ b) (hqs : ∀ q', .quantity q' ∈ l → a ≤ q' ∧ q' ≤ b) :
    (∀ f ∈ Spec.shown (s.run l).1, (f.nb : ℤ) ≤ max 1 b) ∧
    ((∀ c t, .tick c t ∈ l → ∃ op day, c.epic = some (op, day) ∧ ordOf t.dt.wall ≤ day) →
      ∀ f ∈ (Spec.shown (s.run l).1).dropLast, a ≤ (f.nb : ℤ)) := by
  have e := Tuned.new_eq hs
  subst e
  have key : ∀ l : List TuneCmd, Spec.NoInds l → (∀ q', .quantity q' ∈ l → a ≤ q' ∧ q' ≤ b) →
      (a ≤ Spec.quantity q l ∧ Spec.quantity q l ≤ b) ∧
      (∀ f ∈ (Tuned.run ⟨⟨.tick, q, m, [], [], []⟩, q, .tick⟩ l).1.fs.hist, (f.nb : ℤ) ≤ max 1 b) ∧
      ((∀ c t, .tick c t ∈ l → ∃ op day, c.epic = some (op, day) ∧ ordOf t.dt.wall ≤ day) →
        ∀ f ∈ (Tuned.run ⟨⟨.tick, q, m, [], [], []⟩, q, .tick⟩ l).1.fs.hist.dropLast, a ≤ (f.nb : ℤ)) := by
    intro l
    induction l using List.reverseRecOn with
    | nil =>
      intro _ _
      refine ⟨hq, ?_, ?_⟩
      · intro f hf; simp [Tuned.run, FrameSet.hist] at hf
      · intro _ f hf; simp [Tuned.run, FrameSet.hist] at hf
    | append_singleton l x ih =>
      intro hl hqs
      obtain ⟨p1, p2⟩ := plain_snoc hl
      obtain ⟨i1, i2, i3⟩ := ih p1 (fun q' h => hqs q' (by simp [h]))
      obtain ⟨w1, w2, w3, w4, -⟩ := Youngest.run (s := ⟨⟨.tick, q, m, [], [], []⟩, q, .tick⟩) l (tidy_new hm) p1
      simp only at w2 w3 w4
      have hqty : Spec.quantity q (l ++ [x]) = Spec.quantity (Spec.quantity q l) [x] := by
        unfold Spec.quantity; rw [List.foldl_append]
      rw [tuned_snoc, hqty]
      have i3' : (∀ c t, .tick c t ∈ l ++ [x] → ∃ op day, c.epic = some (op, day) ∧ ordOf t.dt.wall ≤ day) →
          ∀ f ∈ (Tuned.run ⟨⟨.tick, q, m, [], [], []⟩, q, .tick⟩ l).1.fs.hist.dropLast, a ≤ (f.nb : ℤ) :=
        fun H => i3 (fun c t h => H c t (by simp [h]))
      cases x with
      | tick c t =>
        refine ⟨i1, ?_⟩
        rw [← w4] at i1
        have hmem : TuneCmd.tick c t ∈ l ++ [.tick c t] := by simp
        simp only [Tuned.exec]
        rw [w3]
        generalize (Tuned.run ⟨⟨.tick, q, m, [], [], []⟩, q, .tick⟩ l).1.fs = fs at *
        unfold tunedFeed
        rw [if_pos w2]
        rcases w1.current with ⟨h1, h2⟩ | ⟨pre, f, h1, h2⟩
        · have ho : fs.overTick c t = true := by unfold FrameSet.overTick; rw [h1]
          rw [if_pos ho]
          obtain ⟨-, k2, -⟩ := w1.create c t t.dt.wall none
          have : fs.hist = [] := by rw [FrameSet.hist, h2]; rfl
          rw [k2, this]
          simp
        · have e : fs.hist = pre.map Frame.snap ++ [f.snap] := by rw [FrameSet.hist, h1]; simp
          have hof : fs.overTick c t = (decide (fs.qty ≤ (f.nbTicks : ℤ)) ||
              match c.epic with
              | none => true
              | some (_, lastDate) => decide (lastDate < ordOf t.dt.wall)) := by
            unfold FrameSet.overTick; rw [h2]; rfl
          by_cases ho : fs.overTick c t = true
          · rw [if_pos ho]
            obtain ⟨-, k2, -⟩ := w1.create c t t.dt.wall none
            rw [k2]
            refine ⟨?_, ?_⟩
            · intro g hg
              rcases List.mem_append.mp hg with hg | hg
              · exact i2 g hg
              · rw [List.mem_singleton.mp hg]; simp
            · intro H g hg
              rw [List.dropLast_concat, e] at hg
              rcases List.mem_append.mp hg with hg | hg
              · refine i3' H g ?_
                rw [e, List.dropLast_concat]
                exact hg
              · rw [List.mem_singleton.mp hg]
                rw [hof] at ho
                obtain ⟨op, day, y1, y2⟩ := H c t hmem
                rw [y1] at ho
                simp only [Bool.or_eq_true, decide_eq_true_eq] at ho
                have : fs.qty ≤ (f.nbTicks : ℤ) := ho.resolve_right (by omega)
                exact i1.1.trans this
          · rw [if_neg ho]
            obtain ⟨-, -, -, -, -, k6⟩ := w1.add c t
            rw [k6 _ _ e]
            refine ⟨?_, ?_⟩
            · intro g hg
              rcases List.mem_append.mp hg with hg | hg
              · exact i2 g (by rw [e]; exact List.mem_append_left _ hg)
              · rw [List.mem_singleton.mp hg]
                rw [hof] at ho
                simp only [Bool.or_eq_true, decide_eq_true_eq, not_or] at ho
                have h3 : ¬ fs.qty ≤ (f.nbTicks : ℤ) := ho.1
                have h4 : ((f.snap.take t).nb : ℤ) = (f.nbTicks : ℤ) + 1 := by
                  show ((f.nbTicks + 1 : ℕ) : ℤ) = _
                  push_cast; rfl
                rw [h4]
                refine le_max_of_le_right ?_
                omega
            · intro H g hg
              rw [List.dropLast_concat] at hg
              refine i3' H g ?_
              rw [e, List.dropLast_concat]
              exact hg
      | quantity q' => exact ⟨hqs q' (by simp), i2, i3'⟩
      | memory m' => exact ⟨i1, i2, i3'⟩
      | unit u' => exact ⟨i1, i2, i3'⟩
      | indicator ind => exact absurd (by simp) (p2.1 ind)
  obtain ⟨-, k2, k3⟩ := key l hl hqs
  obtain ⟨d, v1, v2, -⟩ := (Youngest.run (s := ⟨⟨.tick, q, m, [], [], []⟩, q, .tick⟩) l (tidy_new hm) hl).1.view
  unfold Spec.shown
  rw [v1]
  refine ⟨fun f hf => k2 f (List.mem_of_mem_drop hf), fun H f hf => k3 H f ?_⟩
  generalize (Tuned.run ⟨⟨.tick, q, m, [], [], []⟩, q, .tick⟩ l).1.fs.hist = H at *
  have hne : H.drop d ≠ [] := by
    intro h0; rw [h0] at hf; simp at hf
  rw [← List.take_append_drop d H, List.dropLast_append_of_ne_nil hne]
  exact List.mem_append_right _ hf

end

/-! ## Counterexamples and concrete cases -/

/-- A tick of 6 January 2020, `m` minutes after midnight, to a frame set of an open epic. -/
def Demo.at (m : ℤ) (v : ℚ) : TuneCmd := .tick ⟨Zone.utc, some (true, ordOf Demo.monday)⟩ (Demo.tk m v v)

theorem Demo.sane (l : List (ℤ × ℚ)) (h : ∀ p ∈ l, 1 ≤ yearOf (Demo.monday + p.1 * minUs)) (l' : List TuneCmd)
    (hl : ∀ c t, TuneCmd.tick c t ∈ l' → ∃ p ∈ l, TuneCmd.tick c t = Demo.at p.1 p.2) : Spec.Sane l' := by
  intro c t ht
  obtain ⟨p, p1, p2⟩ := hl c t ht
  unfold Demo.at at p2
  cases p2
  exact ⟨fun x => le_rfl, h p p1⟩

/-- One-minute frames, assigned a quantity of 5 at the start. -/
def Demo.coarse : List TuneCmd := [.quantity 5, Demo.at 600 10]

/-- Five-minute frames, assigned a quantity of 1 after the first tick. -/
def Demo.finer : List TuneCmd := [Demo.at 600 10, .quantity 1]

theorem Demo.coarse_ok : Spec.NoInds Demo.coarse ∧ Spec.Sane (Demo.coarse ++ [Demo.at 604 11]) ∧ Spec.TicksOrdered (Demo.coarse ++ [Demo.at 604 11]) := by
  refine ⟨⟨by simp [Demo.coarse, Demo.at], by simp [Demo.coarse, Demo.at]⟩, ?_, ?_⟩
  · refine Demo.sane [(600, 10), (604, 11)] (by decide +kernel) _ ?_
    intro c t ht
    simp only [Demo.coarse, List.cons_append, List.nil_append, List.mem_cons, reduceCtorEq, List.not_mem_nil, or_false, false_or] at ht
    rcases ht with ht | ht
    · exact ⟨(600, 10), by simp, ht⟩
    · exact ⟨(604, 11), by simp, ht⟩
  · simp only [Spec.TicksOrdered, Demo.coarse, List.cons_append, List.nil_append, List.pairwise_cons, List.mem_cons, List.not_mem_nil, or_false,
      Demo.at]
    refine ⟨?_, ?_, ?_⟩
    · intro y _ c t c' t' h; cases h
    · rintro y rfl c t c' t' h h'
      cases h; cases h'
      decide +kernel
    · exact ⟨fun y hy => hy.elim, List.Pairwise.nil⟩

theorem Demo.finer_ok : Spec.NoInds Demo.finer ∧ Spec.Sane (Demo.finer ++ [Demo.at 612 11]) ∧ Spec.TicksOrdered (Demo.finer ++ [Demo.at 612 11]) := by
  refine ⟨⟨by simp [Demo.finer, Demo.at], by simp [Demo.finer, Demo.at]⟩, ?_, ?_⟩
  · refine Demo.sane [(600, 10), (612, 11)] (by decide +kernel) _ ?_
    intro c t ht
    simp only [Demo.finer, List.cons_append, List.nil_append, List.mem_cons, reduceCtorEq, List.not_mem_nil, or_false, false_or] at ht
    rcases ht with ht | ht
    · exact ⟨(600, 10), by simp, ht⟩
    · exact ⟨(612, 11), by simp, ht⟩
  · simp only [Spec.TicksOrdered, Demo.finer, List.cons_append, List.nil_append, List.pairwise_cons, List.mem_cons, List.not_mem_nil, or_false,
      Demo.at]
    refine ⟨?_, ?_, ?_⟩
    · rintro y (rfl | rfl) c t c' t' h h'
      · cases h'
      · cases h; cases h'
        decide +kernel
    · intro y _ c t c' t' h; cases h
    · exact ⟨fun y hy => hy.elim, List.Pairwise.nil⟩

/-- C101 is false: one-minute frames, then `unit_quantity = 5`: the tick of 10:04 gets a second frame 10:00-10:01. -/
theorem C101_inside_false : ¬ @Spec.C101 Arith.exact := by
  letI := Arith.exact
  intro H
  obtain ⟨h1, h2, h3⟩ := Demo.coarse_ok
  have h := (H .minute 1 10 ⟨⟨.minute, 1, 10, [], [], []⟩, 1, .minute⟩ Demo.coarse _ _ rfl (by decide) (by unfold Spec.Accepted; decide) h1 h2 h3
    (by intro q' hq; simp [Demo.coarse, Demo.at] at hq; subst hq; unfold Spec.Accepted; decide)).1
  rcases h with ⟨h, -⟩ | ⟨-, f, pe, e1, -, -, e2, e3⟩
  · revert h; decide +kernel
  · have : (Spec.shown ((Tuned.run ⟨⟨.minute, 1, 10, [], [], []⟩, 1, .minute⟩ Demo.coarse).1.exec (Demo.at 604 11)).1).getLast?.bind Snap.stop =
        some (Demo.monday + 601 * minUs) := by decide +kernel
    rw [show (Demo.at 604 11) = .tick ⟨Zone.utc, some (true, ordOf Demo.monday)⟩ (Demo.tk 604 11 11) from rfl, e1, Option.bind_some, e2] at this
    cases this
    revert e3
    decide +kernel

/-- C101 is false also for smaller quantities: five-minute frames, then `unit_quantity = 1`: a tick at 10:12 after one at 10:00 makes the frames
10:05-10:10, 10:10-10:15 and 10:12-10:17, and the last two overlap. -/
theorem C101_overlap_false : ∃ (s : Tuned) (l : List TuneCmd) (c : Ctx) (t : Tick), Tuned.new .minute 5 10 = .ok s ∧ Spec.NoInds l ∧
    Spec.Sane (l ++ [.tick c t]) ∧ Spec.TicksOrdered (l ++ [.tick c t]) ∧ (∀ q', .quantity q' ∈ l → Spec.Accepted .minute q' ∧ q' ≤ 5) ∧
    letI := Arith.exact
    (Spec.shown ((s.run l).1.exec (.tick c t)).1).map (fun f => (f.start - Demo.monday, f.stop.map (· - Demo.monday))) =
      [(600 * minUs, some (605 * minUs)), (605 * minUs, some (610 * minUs)), (610 * minUs, some (615 * minUs)), (612 * minUs, some (617 * minUs))] ∧
    ¬ (Spec.shown ((s.run l).1.exec (.tick c t)).1).Pairwise (fun f g => ∃ pe, f.stop = some pe ∧ pe ≤ g.start) := by
  letI := Arith.exact
  obtain ⟨h1, h2, h3⟩ := Demo.finer_ok
  refine ⟨⟨⟨.minute, 5, 10, [], [], []⟩, 5, .minute⟩, Demo.finer, _, _, rfl, h1, h2, h3, ?_, ?_, ?_⟩
  · intro q' hq
    simp [Demo.finer, Demo.at] at hq
    subst hq
    unfold Spec.Accepted
    decide
  · decide +kernel
  · intro h
    have h' := List.pairwise_iff_getElem.mp h 2 3 (by decide +kernel) (by decide +kernel) (by decide)
    obtain ⟨pe, g1, g2⟩ := h'
    have e1 : ((Spec.shown ((Tuned.run ⟨⟨.minute, 5, 10, [], [], []⟩, 5, .minute⟩ Demo.finer).1.exec (Demo.at 612 11)).1)[2]'(by decide +kernel)).stop =
        some (Demo.monday + 615 * minUs) := by decide +kernel
    have e2 : ((Spec.shown ((Tuned.run ⟨⟨.minute, 5, 10, [], [], []⟩, 5, .minute⟩ Demo.finer).1.exec (Demo.at 612 11)).1)[3]'(by decide +kernel)).start =
        Demo.monday + 612 * minUs := by decide +kernel
    have g1' := e1.symm.trans g1
    cases g1'
    have g2' := g2.trans_eq e2
    revert g2'
    decide +kernel

/-- C101 (inside): the hypotheses hold in the run of the last counterexample, and the tick of 10:12 is in the frame 10:12-10:17. -/
example : letI := Arith.exact
    Spec.Inside ((Tuned.run ⟨⟨.minute, 5, 10, [], [], []⟩, 5, .minute⟩ Demo.finer).1.exec (Demo.at 612 11)).1 (Demo.tk 612 11 11) := by
  letI := Arith.exact
  obtain ⟨h1, h2, h3⟩ := Demo.finer_ok
  rcases C101_inside_partial .minute 5 10 ⟨⟨.minute, 5, 10, [], [], []⟩, 5, .minute⟩ Demo.finer _ _ rfl (by decide) (by unfold Spec.Accepted; decide)
    h1 h2 h3 (by intro q' hq; simp [Demo.finer, Demo.at] at hq; subst hq; unfold Spec.Accepted; decide) with ⟨-, h, -⟩ | ⟨-, h⟩
  · cases h
  · exact h

/-- C101 (memory): one-minute frames, three in memory; limit 1 assigned after four minutes, limit 5 after five.  The frames in memory after each
command: a lower limit takes effect with the next frame, a higher one brings nothing back. -/
def Demo.limits : List TuneCmd := [Demo.at 600 1, Demo.at 601 2, Demo.at 602 3, Demo.at 603 4, .memory 1, Demo.at 603 5, Demo.at 604 6, .memory 5,
  Demo.at 607 7, Demo.at 608 8, Demo.at 609 9]

example : letI := Arith.exact
    Tuned.new .minute 1 3 = .ok ⟨⟨.minute, 1, 3, [], [], []⟩, 1, .minute⟩ ∧
    (List.range 12).map (fun k => (Spec.shown (Tuned.run ⟨⟨.minute, 1, 3, [], [], []⟩, 1, .minute⟩ (Demo.limits.take k)).1).length) =
      [0, 1, 2, 3, 3, 3, 3, 1, 1, 4, 5, 5] ∧
    Spec.shown (Tuned.run ⟨⟨.minute, 1, 3, [], [], []⟩, 1, .minute⟩ Demo.limits).1 =
      (Spec.shown (Tuned.run ⟨⟨.minute, 1, 100, [], [], []⟩, 1, .minute⟩ (Demo.limits.map (Spec.roomy 100))).1).drop 5 := by
  letI := Arith.exact
  exact ⟨rfl, by decide +kernel, by decide +kernel⟩

theorem Demo.limits_plain : Spec.NoInds Demo.limits := ⟨by simp [Demo.limits, Demo.at], by simp [Demo.limits, Demo.at]⟩

/-- The hypotheses of C101 (memory, how many) hold there. -/
example : letI := Arith.exact
    ∃ M₀, ∀ M s', M₀ ≤ M → Tuned.new .minute 1 M = .ok s' →
      (Tuned.run ⟨⟨.minute, 1, 3, [], [], []⟩, 1, .minute⟩ Demo.limits).2 = (s'.run (Demo.limits.map (Spec.roomy M))).2 := by
  letI := Arith.exact
  obtain ⟨M₀, h⟩ := C101_memory .minute 1 3 ⟨⟨.minute, 1, 3, [], [], []⟩, 1, .minute⟩ rfl (by decide) Demo.limits Demo.limits_plain
  exact ⟨M₀, fun M s' h1 h2 => (h M s' h1 h2).1⟩

/-- C101 (frames of ticks): three ticks a frame, then two, then three; the unit assigned to minutes in between. -/
example : letI := Arith.exact
    (Spec.shown (Tuned.run ⟨⟨.tick, 3, 10, [], [], []⟩, 3, .tick⟩ [Demo.at 600 1, Demo.at 600 2, .quantity 2, Demo.at 601 3, .unit .minute,
      Demo.at 602 4, Demo.at 603 5, .quantity 3, Demo.at 604 6, Demo.at 605 7, Demo.at 606 8]).1).map Snap.nb = [2, 2, 3, 1] := by
  letI := Arith.exact
  decide +kernel

example : letI := Arith.exact
    ∀ f ∈ (Spec.shown (Tuned.run ⟨⟨.tick, 3, 10, [], [], []⟩, 3, .tick⟩ [Demo.at 600 1, Demo.at 600 2, .quantity 2, Demo.at 601 3]).1).dropLast,
      (2 : ℤ) ≤ (f.nb : ℤ) := by
  letI := Arith.exact
  refine (C101_ticks 3 10 2 3 ⟨⟨.tick, 3, 10, [], [], []⟩, 3, .tick⟩ rfl (by decide) _ ⟨by simp [Demo.at], by simp [Demo.at]⟩ (by decide)
    (by intro q' hq; simp [Demo.at] at hq; subst hq; decide)).2 ?_
  intro c t ht
  simp only [Demo.at, List.mem_cons, TuneCmd.tick.injEq, reduceCtorEq, List.not_mem_nil, or_false, false_or] at ht
  rcases ht with ⟨rfl, rfl⟩ | ⟨rfl, rfl⟩ | ⟨rfl, rfl⟩ <;> exact ⟨_, _, rfl, by decide +kernel⟩

end Estrade
