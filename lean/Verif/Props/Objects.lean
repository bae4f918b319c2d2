import Verif.Lemmas.Objects
import Verif.Props.Isolated
import Mathlib.Tactic.IntervalCases

/-!
# C99: quotes assigned to tick objects (estrade/tick.py:75-105, estrade/graph/frame_set.py)
-/

set_option linter.style.haveILetI false
set_option linter.unusedSectionVars false
set_option autoImplicit false

namespace Estrade

/-- Spec: the command gives a tick to the frame set. -/
def Spec.isFeed : QuoteCmd → Bool
  | .feed _ _ => true
  | _ => false

/-- Spec: object `i` is given to the frame set. -/
def Spec.feedsObj (i : ℕ) (l : List QuoteCmd) : Prop := ∃ c, QuoteCmd.feed c i ∈ l

/-- Spec: an assignment to object `i`. -/
def Spec.assigns (i : ℕ) : QuoteCmd → Prop
  | .bid j _ => j = i
  | .ask j _ => j = i
  | .feed _ _ => False

/-- Spec: no object is assigned after it was fed. -/
def Spec.AssignedBefore (l : List QuoteCmd) : Prop :=
  ∀ (l1 l2 : List QuoteCmd) (x : QuoteCmd) (i : ℕ), l = l1 ++ x :: l2 → Spec.assigns i x → ¬ Spec.feedsObj i l1

/-- Spec: the number that an argument stands for; nothing for arguments that are no numbers. -/
def Spec.number [Arith] : PyVal → Option ℚ
  | .int n => some (fl n)
  | .float x => some x
  | .other => none

/-- Spec: the numbers assigned to the bid of object `i`, in order. -/
def Spec.bids [Arith] (i : ℕ) (l : List QuoteCmd) : List ℚ := l.filterMap (fun c => match c with
  | .bid j v => if j = i then Spec.number v else none
  | _ => none)

/-- Spec: the numbers assigned to the ask of object `i`, in order. -/
def Spec.asks [Arith] (i : ℕ) (l : List QuoteCmd) : List ℚ := l.filterMap (fun c => match c with
  | .ask j v => if j = i then Spec.number v else none
  | _ => none)

/-- Spec: the calls on a frame set in which each object is the tick `o` says. -/
def Spec.deliveries (o : ℕ → Tick) (l : List QuoteCmd) : List Spec.SetCmd := l.filterMap (fun c => match c with
  | .feed c i => some (.feed c (o i))
  | _ => none)

/-- Spec: a frame shows its extremes: neither its first nor its last tick is higher than `high_tick` or lower than
`low_tick`. -/
def Spec.ShowsExtremes [Arith] (o : ℕ → Tick) (f : Snap ℕ) : Prop :=
  (o f.first).value ≤ (o f.high).value ∧ (o f.last).value ≤ (o f.high).value ∧
  (o f.low).value ≤ (o f.first).value ∧ (o f.low).value ≤ (o f.last).value

/-- Spec: every frame of every program shows its extremes. -/
def Spec.C99Extremes [Arith] : Prop := ∀ (o : ℕ → Tick) (u : Unit') (q m : ℤ) (l : List QuoteCmd),
  ∀ f ∈ (ObjSet.run ⟨o, u, q, m, []⟩ l).frames, Spec.ShowsExtremes (ObjSet.run ⟨o, u, q, m, []⟩ l).obj f

section
variable [Arith]

theorem ObjSet.run_snoc (s : ObjSet) (l : List QuoteCmd) (c : QuoteCmd) : s.run (l ++ [c]) = ((s.run l).exec c).1 := by
  unfold ObjSet.run; rw [List.foldl_append]; rfl

/-- The quotes of an object are the last numbers assigned to them, or the ones it was made with; the datetime stays. -/
theorem C99_quotes (s : ObjSet) (l : List QuoteCmd) (i : ℕ) :
    ((s.run l).obj i).bid = (Spec.bids i l).getLast?.getD (s.obj i).bid ∧
    ((s.run l).obj i).ask = (Spec.asks i l).getLast?.getD (s.obj i).ask ∧
    ((s.run l).obj i).dt = (s.obj i).dt := by
  induction l using List.reverseRecOn with
  | nil => exact ⟨rfl, rfl, rfl⟩
  | append_singleton l c ih =>
    rw [ObjSet.run_snoc]
    unfold Spec.bids Spec.asks
    rw [List.filterMap_append, List.filterMap_append]
    change _ = ((Spec.bids i l) ++ _).getLast?.getD _ ∧ _ = ((Spec.asks i l) ++ _).getLast?.getD _ ∧ _
    rcases c with ⟨j, v⟩ | ⟨j, v⟩ | ⟨c, j⟩
    · rcases v with n | x | _ <;> by_cases hj : j = i <;>
        simp [ObjSet.exec, ObjSet.put, Tick.setBid, PyVal.toFloat, Spec.number, hj, ih, eq_comm (a := i), bind, Except.bind]
    · rcases v with n | x | _ <;> by_cases hj : j = i <;>
        simp [ObjSet.exec, ObjSet.put, Tick.setAsk, PyVal.toFloat, Spec.number, hj, ih, eq_comm (a := i), bind, Except.bind]
    · simp [ObjSet.exec, ObjSet.feed_obj, ih]

/-- An assignment raises exactly when the value is no number, and then changes nothing. -/
theorem C99_setters (s : ObjSet) (i : ℕ) (v : PyVal) :
    ((s.exec (.bid i v)).2 = none ↔ v ≠ .other) ∧ ((s.exec (.ask i v)).2 = none ↔ v ≠ .other) ∧
    (s.exec (.bid i .other)) = (s, some .tick) ∧ (s.exec (.ask i .other)) = (s, some .tick) := by
  refine ⟨?_, ?_, rfl, rfl⟩
  · rcases v with n | x | _ <;> simp [ObjSet.exec, ObjSet.put, Tick.setBid, PyVal.toFloat, bind, Except.bind]
  · rcases v with n | x | _ <;> simp [ObjSet.exec, ObjSet.put, Tick.setAsk, PyVal.toFloat, bind, Except.bind]

/-- Periods, numbers of ticks, first and last object of every frame do not depend on assignments. -/
theorem C99_shape (s : ObjSet) (l : List QuoteCmd) :
    (s.run l).frames.map (fun f => (f.start, f.stop, f.nb, f.first, f.last)) =
      (s.run (l.filter Spec.isFeed)).frames.map (fun f => (f.start, f.stop, f.nb, f.first, f.last)) := by
  suffices h : ∀ (l : List QuoteCmd) (s s' : ObjSet), Alike s s' → Alike (s.run l) (s'.run (l.filter Spec.isFeed)) from
    (h l s s (Alike.refl s)).frames
  intro l
  induction l with
  | nil => intro s s' h; exact h
  | cons c l ih =>
    intro s s' h
    rcases c with ⟨j, v⟩ | ⟨j, v⟩ | ⟨c, j⟩
    · exact ih _ _ (h.put j _ (fun t ht => Tick.setBid_dt ht))
    · exact ih _ _ (h.put j _ (fun t ht => Tick.setAsk_dt ht))
    · exact ih _ _ (h.feed c j).1

/-- The tick objects of a frame are objects that were fed. -/
theorem C99_objects (s : ObjSet) (l : List QuoteCmd) (hs : s.frames = []) (f : Snap ℕ) (hf : f ∈ (s.run l).frames) :
    Spec.feedsObj f.first l ∧ Spec.feedsObj f.high l ∧ Spec.feedsObj f.low l ∧ Spec.feedsObj f.last l := by
  suffices h : ∀ (l l0 : List QuoteCmd), (∀ c ∈ l, c ∈ l0) → Within (fun i => Spec.feedsObj i l0) (s.run l).frames from
    h l l (fun _ h => h) f hf
  intro l l0
  induction l using List.reverseRecOn with
  | nil => intro _ f hf; rw [show (s.run []).frames = [] from hs] at hf; cases hf
  | append_singleton l c ih =>
    intro hl
    have hi := ih (fun c hc => hl c (by simp [hc]))
    rw [ObjSet.run_snoc]
    rcases c with ⟨j, v⟩ | ⟨j, v⟩ | ⟨c, j⟩
    · change Within _ (ObjSet.put _ _ _).1.frames
      rcases ((s.run l).obj j).setBid v with e | t <;> exact hi
    · change Within _ (ObjSet.put _ _ _).1.frames
      rcases ((s.run l).obj j).setAsk v with e | t <;> exact hi
    · exact hi.feed c ⟨c, hl _ (by simp)⟩

/-- Without assignments: the frames of `Frame.lean`, whose ticks are copies. -/
theorem C99_conservative (o : ℕ → Tick) (u : Unit') (q m : ℤ) (l : List QuoteCmd) (hl : ∀ c ∈ l, Spec.isFeed c = true) :
    (ObjSet.run ⟨o, u, q, m, []⟩ l).frames.map (Snap.map o) =
      (Spec.setRun ⟨u, q, m, [], [], []⟩ (Spec.deliveries o l)).view.map Frame.snap := by
  suffices h : Shows (ObjSet.run ⟨o, u, q, m, []⟩ l) (Spec.setRun ⟨u, q, m, [], [], []⟩ (Spec.deliveries o l)) ∧
      (ObjSet.run ⟨o, u, q, m, []⟩ l).obj = o by
    rw [h.1.view, h.2]
  induction l using List.reverseRecOn with
  | nil => exact ⟨Shows.new o u q m, rfl⟩
  | append_singleton l c ih =>
    obtain ⟨h1, h2⟩ := ih (fun c hc => hl c (by simp [hc]))
    rcases c with ⟨j, v⟩ | ⟨j, v⟩ | ⟨c, j⟩
    · have := hl (.bid j v) (by simp); cases this
    · have := hl (.ask j v) (by simp); cases this
    · rw [ObjSet.run_snoc]
      have hd : Spec.deliveries o (l ++ [.feed c j]) = Spec.deliveries o l ++ [.feed c (o j)] := by
        unfold Spec.deliveries; rw [List.filterMap_append]; rfl
      refine ⟨?_, (ObjSet.feed_obj _ c j).trans h2⟩
      rw [hd]
      unfold Spec.setRun
      rw [List.foldl_append]
      have := (h1.feed c j).1
      rw [h2] at this
      exact this

theorem run_agree {K : ℕ → Prop} : ∀ (l : List QuoteCmd) (s : ObjSet) (o : ℕ → Tick), (∀ c ∈ l, Spec.isFeed c = true) →
    (∀ i, Spec.feedsObj i l → K i) → Within K s.frames → (∀ j, K j → o j = s.obj j) →
    ({ s with obj := o } : ObjSet).run l = { s.run l with obj := o } := by
  intro l
  induction l with
  | nil => intro s o _ _ _ _; rfl
  | cons c l ih =>
    intro s o hl hK hw ho
    rcases c with ⟨j, v⟩ | ⟨j, v⟩ | ⟨c, j⟩
    · have := hl (.bid j v) (by simp); cases this
    · have := hl (.ask j v) (by simp); cases this
    · have hj : K j := hK j ⟨c, by simp⟩
      have h1 := ObjSet.feed_agree s o hw c hj ho
      change ObjSet.run (ObjSet.feed _ c j).1 l = { ObjSet.run (s.feed c j).1 l with obj := o }
      rw [h1]
      refine ih (s.feed c j).1 o (fun c hc => hl c (by simp [hc])) (fun i ⟨c', hi⟩ => hK i ⟨c', by simp [hi]⟩)
        (hw.feed c hj) (fun k hk => ?_)
      rw [ObjSet.feed_obj]
      exact ho k hk

theorem run_before (s : ObjSet) (hs : s.frames = []) (l : List QuoteCmd) (hb : Spec.AssignedBefore l) :
    s.run l = ({ s with obj := (s.run l).obj } : ObjSet).run (l.filter Spec.isFeed) := by
  induction l using List.reverseRecOn with
  | nil => rfl
  | append_singleton l c ih =>
    have hb' : Spec.AssignedBefore l := fun l1 l2 x i h hx =>
      hb l1 (l2 ++ [c]) x i (by rw [h]; simp) hx
    have ih := ih hb'
    have hput : ∀ (j : ℕ) (o : Except PyErr Tick), ¬ Spec.feedsObj j l →
        ((s.run l).put j o).1 = ({ s with obj := ((s.run l).put j o).1.obj } : ObjSet).run (l.filter Spec.isFeed) := by
      intro j o hj
      rcases o with e | t
      · exact ih
      · have h0 := run_agree (K := fun i => Spec.feedsObj i l) (l.filter Spec.isFeed)
          ({ s with obj := (s.run l).obj } : ObjSet) (fun k => if k = j then t else (s.run l).obj k)
          (fun c hc => (List.mem_filter.1 hc).2) (fun i ⟨c, hc⟩ => ⟨c, (List.mem_filter.1 hc).1⟩)
          (by rw [show ({ s with obj := (s.run l).obj } : ObjSet).frames = [] from hs]; intro f hf; cases hf)
          (fun k hk => by
            have : k ≠ j := fun h => hj (h ▸ hk)
            simp [this])
        rw [← ih] at h0
        exact h0.symm
    rw [ObjSet.run_snoc, List.filter_append]
    rcases c with ⟨j, v⟩ | ⟨j, v⟩ | ⟨c, j⟩
    · have := hput j (((s.run l).obj j).setBid v) (hb l [] _ j rfl rfl)
      simpa [Spec.isFeed, ObjSet.exec] using this
    · have := hput j (((s.run l).obj j).setAsk v) (hb l [] _ j rfl rfl)
      simpa [Spec.isFeed, ObjSet.exec] using this
    · change ((s.run l).feed c j).1 = ObjSet.run { s with obj := ((s.run l).feed c j).1.obj } (l.filter Spec.isFeed ++ [.feed c j])
      rw [ObjSet.run_snoc, ObjSet.feed_obj, ← ih]
      rfl

/-- Objects assigned only before they are fed: the frames are those of ticks made with the quotes they end up with, so that
everything proved about frames (C07 to C12) holds of them. -/
theorem C99_before (o : ℕ → Tick) (u : Unit') (q m : ℤ) (l : List QuoteCmd) (hb : Spec.AssignedBefore l) :
    (ObjSet.run ⟨o, u, q, m, []⟩ l).frames.map (Snap.map (ObjSet.run ⟨o, u, q, m, []⟩ l).obj) =
      (Spec.setRun ⟨u, q, m, [], [], []⟩ (Spec.deliveries (ObjSet.run ⟨o, u, q, m, []⟩ l).obj l)).view.map Frame.snap := by
  have h1 := run_before ⟨o, u, q, m, []⟩ rfl l hb
  have h2 := C99_conservative (ObjSet.run ⟨o, u, q, m, []⟩ l).obj u q m (l.filter Spec.isFeed)
    (fun c hc => (List.mem_filter.1 hc).2)
  have h3 : Spec.deliveries (ObjSet.run ⟨o, u, q, m, []⟩ l).obj (l.filter Spec.isFeed) =
      Spec.deliveries (ObjSet.run ⟨o, u, q, m, []⟩ l).obj l := by
    unfold Spec.deliveries
    rw [List.filterMap_filter]
    apply List.filterMap_congr
    intro c _
    rcases c with ⟨j, v⟩ | ⟨j, v⟩ | ⟨c, j⟩ <;> simp [Spec.isFeed]
  rw [h3] at h2
  rw [← h2]
  congr 1
  exact congrArg ObjSet.frames h1

theorem feed_all (P : Snap ℕ → Prop) (hP : ∀ i ps pe, P (Snap.fresh i ps pe)) (s : ObjSet)
    (ht : ∀ f i, P f → P (f.track s.obj i)) (h : ∀ f ∈ s.frames, P f) (c : Ctx) (i : ℕ) : ∀ f ∈ (s.feed c i).1.frames, P f := by
  have hcreate : ∀ (s : ObjSet) (i : ℕ) (ps : ℤ) (pe : Option ℤ), (∀ f ∈ s.frames, P f) →
      ∀ f ∈ (s.create i ps pe).1.frames, P f := by
    intro s i ps pe h f hf
    rcases List.mem_append.1 (cleanSnaps_mem _ _ f hf) with h1 | h1
    · exact h f h1
    · rw [List.mem_singleton.1 h1]; exact hP i ps pe
  have hfill : ∀ (ps : ℤ) (fuel : ℕ) (s : ObjSet), (∀ f ∈ s.frames, P f) → ∀ f ∈ (s.fill c ps fuel).1.frames, P f := by
    intro ps fuel
    induction fuel with
    | zero =>
      intro s h
      unfold ObjSet.fill
      rcases s.frames.getLast? with _ | f
      · exact h
      · simp only
        rcases f.stop with _ | pe
        · exact h
        · simp only; split_ifs <;> exact h
    | succ n ih =>
      intro s h
      unfold ObjSet.fill
      rcases hf : s.frames.getLast? with _ | f
      · exact h
      · simp only
        rcases f.stop with _ | pe
        · exact h
        · simp only
          split_ifs
          · have hc := hcreate s f.last pe (some (frameEnd c.zone s.unit s.qty pe)) h
            rcases hr : s.create f.last pe (some (frameEnd c.zone s.unit s.qty pe)) with ⟨r, o⟩
            rw [hr] at hc
            rcases o with _ | e
            · exact ih r hc
            · exact hc
          · exact h
  have hadd : ∀ f ∈ (s.addLast i).1.frames, P f := by
    unfold ObjSet.addLast
    rcases hf : s.frames.getLast? with _ | f
    · exact h
    · intro g hg
      rcases List.mem_append.1 hg with h1 | h1
      · exact h g (List.dropLast_subset _ h1)
      · rw [List.mem_singleton.1 h1]; exact ht f i (h f (List.mem_of_getLast? hf))
  unfold ObjSet.feed
  split_ifs
  · exact hcreate s i _ _ h
  · exact hadd
  · rcases s.overTimed i with e | b
    · exact h
    · simp only
      split_ifs
      · unfold ObjSet.timed
        rcases frameStart s.unit s.qty (s.obj i).dt.wall with e | ps
        · exact h
        · have hc := hfill ps (s.fuel ps) s h
          simp only
          rcases hr : s.fill c ps (s.fuel ps) with ⟨r, o⟩
          rw [hr] at hc
          rcases o with _ | e
          · exact hcreate r i _ _ hc
          · exact hc
      · exact hadd

/-- Objects assigned only before they are fed: every frame shows its extremes. -/
theorem C99_extremes_partial (o : ℕ → Tick) (u : Unit') (q m : ℤ) (l : List QuoteCmd) (hb : Spec.AssignedBefore l) :
    ∀ f ∈ (ObjSet.run ⟨o, u, q, m, []⟩ l).frames, Spec.ShowsExtremes (ObjSet.run ⟨o, u, q, m, []⟩ l).obj f := by
  rw [run_before ⟨o, u, q, m, []⟩ rfl l hb]
  generalize (ObjSet.run ⟨o, u, q, m, []⟩ l).obj = o'
  suffices h : ∀ (k : List QuoteCmd) (s : ObjSet), (∀ c ∈ k, Spec.isFeed c = true) → (∀ f ∈ s.frames, Spec.ShowsExtremes s.obj f) →
      ∀ f ∈ (s.run k).frames, Spec.ShowsExtremes (s.run k).obj f from
    h _ _ (fun c hc => (List.mem_filter.1 hc).2) (fun f hf => by cases hf)
  intro k
  induction k with
  | nil => intro s _ h; exact h
  | cons c k ih =>
    intro s hk h
    rcases c with ⟨j, v⟩ | ⟨j, v⟩ | ⟨c, j⟩
    · have := hk (.bid j v) (by simp); cases this
    · have := hk (.ask j v) (by simp); cases this
    · refine ih _ (fun c hc => hk c (by simp [hc])) ?_
      change ∀ f ∈ (s.feed c j).1.frames, Spec.ShowsExtremes (s.feed c j).1.obj f
      rw [ObjSet.feed_obj]
      refine feed_all _ (fun i ps pe => ⟨le_refl _, le_refl _, le_refl _, le_refl _⟩) s (fun f i hf => ?_) h c j
      obtain ⟨h1, h2, h3, h4⟩ := hf
      unfold Snap.track
      simp only
      split_ifs with g1 g2
      · exact ⟨le_trans h1 (le_of_lt g1), le_refl _, h3, le_trans h3 (le_trans h1 (le_of_lt g1))⟩
      · exact ⟨h1, not_lt.1 g1, le_trans (le_of_lt g2) h3, le_refl _⟩
      · exact ⟨h1, not_lt.1 g1, h3, not_lt.1 g2⟩

end

/-- Five tick objects, one per half minute or so: 08:00, 08:00, 08:01, 08:03, 08:03. -/
def Demo.objs : ℕ → Tick
  | 0 => Demo.tk 480 10 12
  | 1 => Demo.tk 480 14 16
  | 2 => Demo.tk 481 11 13
  | 3 => Demo.tk 483 9 11
  | _ => Demo.tk 483 12 14

/-- Assignments before the ticks are fed, one of them refused. -/
def Demo.early : List QuoteCmd :=
  [.bid 1 (.int 20), .ask 1 (.float 22), .feed ⟨Zone.utc, none⟩ 0, .ask 2 .other, .feed ⟨Zone.utc, none⟩ 1,
   .bid 2 (.int 5), .feed ⟨Zone.utc, none⟩ 2, .bid 4 (.float 1), .feed ⟨Zone.utc, none⟩ 3, .feed ⟨Zone.utc, none⟩ 4]

/-- Assignments to ticks that the frames refer to already. -/
def Demo.late : List QuoteCmd :=
  [.feed ⟨Zone.utc, none⟩ 0, .feed ⟨Zone.utc, none⟩ 1, .bid 1 (.int 2), .ask 1 (.int 4), .feed ⟨Zone.utc, none⟩ 2,
   .feed ⟨Zone.utc, none⟩ 3, .bid 0 (.float (21/2)), .feed ⟨Zone.utc, none⟩ 4]

example : Spec.AssignedBefore Demo.early := by
  intro l1 l2 x i h hx ⟨c, hc⟩
  have hlen := congrArg List.length h
  simp only [Demo.early, List.length_append, List.length_cons, List.length_nil] at hlen
  have hx' : Demo.early[l1.length]? = some x := by simp [h]
  have hl1 : l1 = Demo.early.take l1.length := by rw [h]; simp
  rw [hl1] at hc
  have hk : l1.length < 10 := by omega
  generalize l1.length = k at hc hx' hk
  clear h hl1 hlen
  interval_cases k <;> cases hx' <;> simp_all [Demo.early, Spec.assigns] <;> omega

example : letI := Arith.exact
    ((ObjSet.run ⟨Demo.objs, .minute, 1, 10, []⟩ Demo.early).frames.map
      (fun f => (f.nb, f.first, f.high, f.low, f.last)) = [(2, 0, 1, 0, 1), (1, 2, 2, 2, 2), (1, 2, 2, 2, 2), (2, 3, 3, 4, 4)] ∧
    ((ObjSet.run ⟨Demo.objs, .minute, 1, 10, []⟩ Demo.early).obj 1).value = 21) := by
  letI := Arith.exact
  decide +kernel

example : letI := Arith.exact
    ((ObjSet.run ⟨Demo.objs, .minute, 1, 10, []⟩ Demo.late).frames.map
      (fun f => (f.nb, f.first, f.high, f.low, f.last)) = [(2, 0, 1, 0, 1), (1, 2, 2, 2, 2), (1, 2, 2, 2, 2), (2, 3, 4, 3, 4)] ∧
    (ObjSet.run ⟨Demo.objs, .minute, 1, 10, []⟩ (Demo.late.filter Spec.isFeed)).frames.map
      (fun f => (f.nb, f.first, f.last)) = [(2, 0, 1), (1, 2, 2), (1, 2, 2), (2, 3, 4)]) := by
  letI := Arith.exact
  decide +kernel

/-- The check of the constructor, ask ≥ bid (tick.py:52-55), is not made by assignments: the spread can become negative. -/
theorem C99_order_false : ∃ (A : Arith) (t t' : Tick) (d : RawDT) (b a v : PyVal), @Tick.new A d b a = .ok t ∧
    @Tick.setBid A t v = .ok t' ∧ t'.ask < t'.bid ∧ @Tick.spread A t' < 0 := by
  refine ⟨Arith.exact, Demo.tk 480 10 12, Demo.tk 480 15 12, .aware (Demo.tk 480 10 12).dt, .int 10, .int 12, .int 15, ?_⟩
  letI := Arith.exact
  decide +kernel

/-- Assigned after it was fed, the highest tick of a frame stays its `high_tick`, however low it is. -/
theorem C99_extremes_false : ¬ @Spec.C99Extremes Arith.exact := by
  intro h
  letI := Arith.exact
  have h1 : (_ ≤ _ ∧ _ ≤ _ ∧ _ ≤ _ ∧ _ ≤ _) := h Demo.objs .minute 1 10 Demo.late ⟨(Demo.tk 480 0 0).dt.wall, some (Demo.tk 481 0 0).dt.wall, 2, 0, 1, 0, 1⟩
    (by decide +kernel)
  revert h1
  decide +kernel

/-- A closed frame changes: its close is 15, then 3 after an assignment, though no tick came between. -/
theorem C99_closed_false : ∃ (A : Arith) (s : ObjSet) (c : QuoteCmd) (f g : Snap ℕ), s.frames = [f, g] ∧
    (@ObjSet.exec A s c).1.frames = [f, g] ∧
    @Tick.value A (s.obj f.last) ≠ @Tick.value A ((@ObjSet.exec A s c).1.obj f.last) := by
  letI := Arith.exact
  refine ⟨Arith.exact, ObjSet.run ⟨Demo.objs, .minute, 1, 10, []⟩ [.feed ⟨Zone.utc, none⟩ 0, .feed ⟨Zone.utc, none⟩ 2],
    .bid 0 (.int 2), ⟨(Demo.tk 480 0 0).dt.wall, some (Demo.tk 481 0 0).dt.wall, 1, 0, 0, 0, 0⟩,
    ⟨(Demo.tk 481 0 0).dt.wall, some (Demo.tk 482 0 0).dt.wall, 1, 2, 2, 2, 2⟩, ?_⟩
  decide +kernel

end Estrade
