import Verif.Retune
import Verif.Lemmas.Objects
import Verif.Lemmas.Running
import Verif.Props.Timeframes

/-!
# Frame sets that differ in the memory limit (C101)
-/

set_option linter.unusedSectionVars false
set_option autoImplicit false

namespace Estrade

section
variable [Arith]

theorem feedClean_keep {max : ℤ} (ids : List ℕ) (heap : List Frame) (h : (ids.length : ℤ) ≤ max) (h1 : 1 ≤ max) :
    feedClean max heap ids = ((heap, ids), none) := by
  rcases ids with _ | ⟨a, _ | ⟨b, rest⟩⟩
  · unfold feedClean; rw [if_neg (by omega)]
  · unfold feedClean; rw [if_neg (by omega)]
  · unfold feedClean; rw [if_neg (by omega)]

theorem feedClean_drop {max : ℤ} (h1 : 1 ≤ max) : ∀ (ids : List ℕ) (heap : List Frame),
    (feedClean max heap ids).2 = none ∧ (feedClean max heap ids).1.2 = ids.drop (ids.length - max.toNat) ∧
      (feedClean max heap ids).1.1.map Frame.snap = heap.map Frame.snap
  | [], heap => by rw [feedClean_keep [] heap (by simpa using by omega) h1]; simp
  | [a], heap => by
    rw [feedClean_keep [a] heap (by simpa using h1) h1]
    have : [a].length - max.toNat = 0 := by simp; omega
    rw [this]; simp
  | a :: b :: rest, heap => by
    by_cases hm : max < ((a :: b :: rest).length : ℤ)
    · obtain ⟨i1, i2, i3⟩ := feedClean_drop h1 (b :: rest)
        ((heap.modify b (fun f => { f with prev := none })).modify a (fun f => { f with next := none }))
      unfold feedClean
      rw [if_pos hm]
      refine ⟨i1, i2.trans ?_, i3.trans ?_⟩
      · have : (a :: b :: rest).length - max.toNat = ((b :: rest).length - max.toNat) + 1 := by
          simp only [List.length_cons] at hm ⊢
          push_cast at hm
          omega
        rw [this, List.drop_succ_cons]
      · rw [map_modify_eq, map_modify_eq]
        · intro x; rfl
        · intro x; rfl
    · rw [feedClean_keep _ heap (by omega) h1]
      have : (a :: b :: rest).length - max.toNat = 0 := by
        have : ((a :: b :: rest).length : ℤ) ≤ max := by omega
        omega
      rw [this]
      exact ⟨rfl, rfl, rfl⟩

/-- `b` has all its frames in memory, `a` has the same but for the oldest. -/
structure Trails (a b : FrameSet) : Prop where
  unit : a.unit = b.unit
  qty : a.qty = b.qty
  ia : a.indicators = []
  ib : b.indicators = []
  heap : a.heap.map Frame.snap = b.heap.map Frame.snap
  all : b.frames = List.range b.heap.length
  part : ∃ d, a.frames = b.frames.drop d ∧ (d < b.frames.length ∨ b.frames = [] ∧ d = 0)

theorem Trails.len {a b : FrameSet} (h : Trails a b) : a.heap.length = b.heap.length := by
  simpa using congrArg List.length h.heap

theorem Trails.last {a b : FrameSet} (h : Trails a b) : a.frames.getLast? = b.frames.getLast? := by
  obtain ⟨d, h1, h2 | ⟨h2, -⟩⟩ := h.part
  · rw [h1, List.getLast?_drop, if_neg (by omega)]
  · rw [h1, h2]; simp

theorem Trails.current {a b : FrameSet} (h : Trails a b) :
    (a.current = none ∧ b.current = none) ∨
    ∃ i f g, a.current = some (i, f) ∧ b.current = some (i, g) ∧ f.snap = g.snap ∧ a.heap[i]? = some f ∧ b.heap[i]? = some g := by
  unfold FrameSet.current
  rw [h.last]
  rcases b.frames.getLast? with _ | i
  · exact .inl ⟨rfl, rfl⟩
  · simp only
    have hi : (a.heap[i]?).map Frame.snap = (b.heap[i]?).map Frame.snap := by
      rw [← List.getElem?_map, h.heap, List.getElem?_map]
    rcases ha : a.heap[i]? with _ | f <;> rcases hb : b.heap[i]? with _ | g
    · exact .inl ⟨rfl, rfl⟩
    · rw [ha, hb] at hi; cases hi
    · rw [ha, hb] at hi; cases hi
    · rw [ha, hb] at hi
      exact .inr ⟨i, f, g, rfl, rfl, Option.some.inj hi, ha, hb⟩

/-- `n` frames were made by a frame set with limit `max`. -/
structure Made (max : ℤ) (a a' : FrameSet) : Prop where
  le : a.heap.length ≤ a'.heap.length
  kept : a'.frames.length = if a'.heap.length = a.heap.length then a.frames.length
    else min (a.frames.length + (a'.heap.length - a.heap.length)) max.toNat
  limit : a'.maxFrames = a.maxFrames

theorem Made.refl (max : ℤ) (a : FrameSet) : Made max a a := ⟨le_rfl, by simp, rfl⟩

theorem Made.trans {max : ℤ} {a b c : FrameSet} (h : Made max a b) (g : Made max b c) : Made max a c := by
  refine ⟨h.le.trans g.le, ?_, g.limit.trans h.limit⟩
  have h1 := h.kept
  have h2 := g.kept
  have h3 := h.le
  have h4 := g.le
  split_ifs at h1 h2 ⊢ <;> omega

theorem upsert_nil (heap : List Frame) (id : ℕ) (tick : Tick) (mo : Bool) (f : Frame) : upsert heap id tick mo [] f = .ok f := rfl

theorem feedCreate_nil {a : FrameSet} (h : a.indicators = []) (c : Ctx) (tick : Tick) (ps : ℤ) (pe : Option ℤ) :
    a.feedCreate c tick ps pe =
      (let r := feedClean a.maxFrames (linkNext a.heap a.frames.getLast? a.heap.length ++ [Frame.fresh tick ps pe a.frames.getLast?]) (a.frames ++ [a.heap.length])
       ({ a with heap := r.1.1, frames := r.1.2 }, r.2)) := by
  unfold FrameSet.feedCreate
  simp only [h, upsert_nil]

theorem linkNext_size (heap : List Frame) (cur : Option ℕ) (id : ℕ) : (linkNext heap cur id).length = heap.length := by
  unfold linkNext
  rcases cur with _ | i <;> simp

theorem create_made {a : FrameSet} (h : a.indicators = []) (h1 : 1 ≤ a.maxFrames) (c : Ctx) (tick : Tick) (ps : ℤ) (pe : Option ℤ) :
    (a.feedCreate c tick ps pe).2 = none ∧ (a.feedCreate c tick ps pe).1.heap.length = a.heap.length + 1 ∧
      Made a.maxFrames a (a.feedCreate c tick ps pe).1 := by
  rw [feedCreate_nil h]
  obtain ⟨g1, g2, g3⟩ := feedClean_drop h1 (a.frames ++ [a.heap.length])
    (linkNext a.heap a.frames.getLast? a.heap.length ++ [Frame.fresh tick ps pe a.frames.getLast?])
  have hlen : ((feedClean a.maxFrames (linkNext a.heap a.frames.getLast? a.heap.length ++ [Frame.fresh tick ps pe a.frames.getLast?]) (a.frames ++ [a.heap.length])).1.1).length
      = a.heap.length + 1 := by
    have := congrArg List.length g3
    simpa [linkNext_size] using this
  refine ⟨g1, hlen, by simp only; omega, ?_, rfl⟩
  simp only
  rw [hlen, if_neg (by omega), g2, List.length_drop]
  simp only [List.length_append, List.length_cons, List.length_nil]
  omega

theorem Trails.create {a b : FrameSet} (h : Trails a b) (h1 : 1 ≤ a.maxFrames) (hM : (a.heap.length : ℤ) + 1 ≤ b.maxFrames) (c : Ctx) (tick : Tick)
    (ps : ℤ) (pe : Option ℤ) :
    (b.feedCreate c tick ps pe).2 = none ∧ Trails (a.feedCreate c tick ps pe).1 (b.feedCreate c tick ps pe).1 ∧
      (b.feedCreate c tick ps pe).1.maxFrames = b.maxFrames := by
  have hl := h.len
  rw [feedCreate_nil h.ia, feedCreate_nil h.ib]
  obtain ⟨g1, g2, g3⟩ := feedClean_drop h1 (a.frames ++ [a.heap.length])
    (linkNext a.heap a.frames.getLast? a.heap.length ++ [Frame.fresh tick ps pe a.frames.getLast?])
  have hb := feedClean_keep (max := b.maxFrames) (b.frames ++ [b.heap.length])
    (linkNext b.heap b.frames.getLast? b.heap.length ++ [Frame.fresh tick ps pe b.frames.getLast?])
    (by rw [h.all]; simp; omega) (by omega)
  simp only [hb]
  refine ⟨trivial, ⟨h.unit, h.qty, h.ia, h.ib, ?_, ?_, ?_⟩, trivial⟩
  · simp only
    rw [g3, List.map_append, List.map_append, linkNext_snap, linkNext_snap, h.heap]
    rfl
  · simp only
    rw [h.all, List.length_append, linkNext_size, List.length_singleton, List.range_succ]
  · simp only
    rw [g2]
    obtain ⟨d, d1, d2⟩ := h.part
    have d3 : d ≤ b.frames.length := by
      rcases d2 with d2 | ⟨-, d2⟩ <;> omega
    have hal : a.frames.length = b.frames.length - d := by rw [d1, List.length_drop]
    refine ⟨d + ((a.frames ++ [a.heap.length]).length - a.maxFrames.toNat), ?_, ?_⟩
    · rw [← List.drop_drop, List.drop_append_of_le_length d3, ← d1, hl]
    · left
      simp only [List.length_append, List.length_cons, List.length_nil]
      omega

theorem fillFuel_trails {a b : FrameSet} (h : Trails a b) (ps : ℤ) : fillFuel a ps = fillFuel b ps := by
  unfold fillFuel
  rcases h.current with ⟨h1, h2⟩ | ⟨i, f, g, h1, h2, h3, -, -⟩
  · rw [h1, h2]
  · rw [h1, h2]
    have : f.periodEnd = g.periodEnd := congrArg Snap.stop h3
    simp only [this]

theorem fill_made (step : ℤ) (c : Ctx) (ps : ℤ) : ∀ (n : ℕ) (a : FrameSet), a.indicators = [] → 1 ≤ a.maxFrames →
    Made a.maxFrames a (tunedFill step c ps n a).1 ∧ (tunedFill step c ps n a).1.indicators = [] ∧ (tunedFill step c ps n a).1.unit = a.unit := by
  intro n
  induction n with
  | zero =>
    intro a ha hm
    unfold tunedFill
    rcases a.current with _ | ⟨i, f⟩
    · exact ⟨.refl _ _, ha, rfl⟩
    · rcases hp : f.periodEnd with _ | pe
      · simp only [hp]; exact ⟨.refl _ _, ha, trivial⟩
      · simp only [hp]
        split_ifs <;> exact ⟨.refl _ _, ha, rfl⟩
  | succ n ih =>
    intro a ha hm
    unfold tunedFill
    rcases a.current with _ | ⟨i, f⟩
    · exact ⟨.refl _ _, ha, rfl⟩
    · rcases hp : f.periodEnd with _ | pe
      · simp only [hp]; exact ⟨.refl _ _, ha, trivial⟩
      · simp only [hp]
        split_ifs
        · obtain ⟨e1, e2, e3⟩ := create_made ha hm c f.last pe (some (frameEnd c.zone a.unit step pe))
          have e4 : (a.feedCreate c f.last pe (some (frameEnd c.zone a.unit step pe))).1.indicators = [] := by rw [feedCreate_nil ha]; exact ha
          have e5 : (a.feedCreate c f.last pe (some (frameEnd c.zone a.unit step pe))).1.unit = a.unit := by rw [feedCreate_nil ha]
          generalize a.feedCreate c f.last pe (some (frameEnd c.zone a.unit step pe)) = r at *
          obtain ⟨a', err⟩ := r
          simp only at e1 e2 e3 e4 e5
          subst e1
          simp only
          obtain ⟨k1, k2, k3⟩ := ih a' e4 (by rw [e3.limit]; exact hm)
          rw [e3.limit] at k1
          exact ⟨e3.trans k1, k2, k3.trans e5⟩
        · exact ⟨.refl _ _, ha, rfl⟩

theorem Trails.fill (step : ℤ) (c : Ctx) (ps : ℤ) : ∀ (n : ℕ) (a b : FrameSet), Trails a b → 1 ≤ a.maxFrames →
    ((tunedFill step c ps n a).1.heap.length : ℤ) ≤ b.maxFrames →
    (tunedFill step c ps n a).2 = (tunedFill step c ps n b).2 ∧ Trails (tunedFill step c ps n a).1 (tunedFill step c ps n b).1 ∧
      (tunedFill step c ps n b).1.maxFrames = b.maxFrames := by
  intro n
  induction n with
  | zero =>
    intro a b h hm _
    unfold tunedFill
    rcases h.current with ⟨h1, h2⟩ | ⟨i, f, g, h1, h2, h3, -, -⟩
    · rw [h1, h2]; exact ⟨rfl, h, rfl⟩
    · have hp : f.periodEnd = g.periodEnd := congrArg Snap.stop h3
      rw [h1, h2]
      simp only [hp]
      rcases g.periodEnd with _ | pe
      · exact ⟨rfl, h, rfl⟩
      · simp only
        split_ifs <;> exact ⟨rfl, h, rfl⟩
  | succ n ih =>
    intro a b h hm hM
    unfold tunedFill at hM ⊢
    rcases h.current with ⟨h1, h2⟩ | ⟨i, f, g, h1, h2, h3, -, -⟩
    · rw [h1, h2]; exact ⟨rfl, h, rfl⟩
    · have hp : f.periodEnd = g.periodEnd := congrArg Snap.stop h3
      have hla : f.last = g.last := congrArg Snap.last h3
      rw [h1] at hM ⊢
      rw [h2]
      simp only [hp, hla] at hM ⊢
      rcases hgp : g.periodEnd with _ | pe
      · exact ⟨rfl, h, rfl⟩
      · simp only [hgp] at hM ⊢
        split_ifs at hM ⊢
        · obtain ⟨e1, e2, e3⟩ := create_made h.ia hm c g.last pe (some (frameEnd c.zone a.unit step pe))
          have e4 : (a.feedCreate c g.last pe (some (frameEnd c.zone a.unit step pe))).1.indicators = [] := by rw [feedCreate_nil h.ia]; exact h.ia
          have e5 := e3.limit
          have hsmall : (a.heap.length : ℤ) + 1 ≤ b.maxFrames := by
            have hle := (fill_made step c ps n _ e4 (by rw [e5]; exact hm)).1.le
            generalize a.feedCreate c g.last pe (some (frameEnd c.zone a.unit step pe)) = r at *
            obtain ⟨a', err⟩ := r
            simp only at e1 e2 hle
            subst e1
            simp only at hM
            omega
          obtain ⟨k1, k2, k3⟩ := h.create hm hsmall c g.last pe (some (frameEnd c.zone a.unit step pe))
          rw [← h.unit]
          generalize a.feedCreate c g.last pe (some (frameEnd c.zone a.unit step pe)) = r at *
          generalize b.feedCreate c g.last pe (some (frameEnd c.zone a.unit step pe)) = r' at *
          obtain ⟨a', err⟩ := r
          obtain ⟨b', err'⟩ := r'
          simp only at e1 k1
          subst e1 k1
          simp only at hM e5 k2 k3 ⊢
          obtain ⟨z1, z2, z3⟩ := ih a' b' k2 (by rw [e5]; exact hm) (by rw [k3]; exact hM)
          exact ⟨z1, z2, z3.trans k3⟩
        · exact ⟨rfl, h, rfl⟩

theorem feedLast_nil {a : FrameSet} (h : a.indicators = []) (c : Ctx) (tick : Tick) : a.feedLast c tick =
    match a.current with
    | none => (a, none)
    | some (i, f) => ({ a with heap := a.heap.set i (f.track tick) }, none) := by
  unfold FrameSet.feedLast
  rcases a.current with _ | ⟨i, f⟩
  · rfl
  · simp only [h]
    rfl

theorem track_snap {f g : Frame} (h : f.snap = g.snap) (tick : Tick) : (f.track tick).snap = (g.track tick).snap := by
  have h1 : f.high = g.high := congrArg Snap.high h
  have h2 : f.low = g.low := congrArg Snap.low h
  have h3 : f.nbTicks = g.nbTicks := congrArg Snap.nb h
  have h4 : f.periodStart = g.periodStart := congrArg Snap.start h
  have h5 : f.periodEnd = g.periodEnd := congrArg Snap.stop h
  have h6 : f.first = g.first := congrArg Snap.first h
  unfold Frame.track
  simp only [h1, h2]
  split_ifs <;> simp [Frame.snap, *]

theorem last_made {a : FrameSet} (h : a.indicators = []) (c : Ctx) (tick : Tick) : Made a.maxFrames a (a.feedLast c tick).1 ∧ (a.feedLast c tick).2 = none := by
  rw [feedLast_nil h]
  rcases a.current with _ | ⟨i, f⟩
  · exact ⟨.refl _ _, rfl⟩
  · exact ⟨⟨by simp, by simp, rfl⟩, rfl⟩

theorem Trails.add {a b : FrameSet} (h : Trails a b) (c : Ctx) (tick : Tick) :
    (a.feedLast c tick).2 = (b.feedLast c tick).2 ∧ Trails (a.feedLast c tick).1 (b.feedLast c tick).1 ∧
      (b.feedLast c tick).1.maxFrames = b.maxFrames := by
  rw [feedLast_nil h.ia, feedLast_nil h.ib]
  rcases h.current with ⟨h1, h2⟩ | ⟨i, f, g, h1, h2, h3, -, -⟩
  · rw [h1, h2]; exact ⟨rfl, h, rfl⟩
  · rw [h1, h2]
    refine ⟨rfl, ⟨h.unit, h.qty, h.ia, h.ib, ?_, ?_, h.part⟩, rfl⟩
    · simp only
      rw [List.map_set, List.map_set, h.heap, track_snap h3]
    · simp only [List.length_set]
      exact h.all

theorem feed_made (step : ℤ) {a : FrameSet} (h : a.indicators = []) (hm : 1 ≤ a.maxFrames) (c : Ctx) (tick : Tick) :
    Made a.maxFrames a (tunedFeed step a c tick).1 := by
  unfold tunedFeed
  split_ifs
  · exact (create_made h hm c tick _ _).2.2
  · exact (last_made h c tick).1
  · rcases a.overTimed tick with e | over
    · exact .refl _ _
    · simp only
      split_ifs
      · unfold tunedTimed
        rcases frameStart a.unit a.qty tick.dt.wall with e | ps
        · exact .refl _ _
        · simp only
          obtain ⟨k1, k2, k3⟩ := fill_made step c ps (fillFuel a ps) a h hm
          generalize tunedFill step c ps (fillFuel a ps) a = r at *
          obtain ⟨a', err⟩ := r
          rcases err with _ | e
          · have hm' : 1 ≤ a'.maxFrames := by rw [k1.limit]; exact hm
            have := (create_made k2 hm' c tick ps (some (frameEnd c.zone a.unit step ps))).2.2
            rw [k1.limit] at this
            exact k1.trans this
          · exact k1
      · exact (last_made h c tick).1

theorem Trails.feed (step : ℤ) {a b : FrameSet} (h : Trails a b) (hm : 1 ≤ a.maxFrames) (c : Ctx) (tick : Tick)
    (hM : ((tunedFeed step a c tick).1.heap.length : ℤ) ≤ b.maxFrames) :
    (tunedFeed step a c tick).2 = (tunedFeed step b c tick).2 ∧ Trails (tunedFeed step a c tick).1 (tunedFeed step b c tick).1 ∧
      (tunedFeed step b c tick).1.maxFrames = b.maxFrames := by
  have hcre : ∀ {a b : FrameSet}, Trails a b → 1 ≤ a.maxFrames → ∀ ps pe, ((a.feedCreate c tick ps pe).1.heap.length : ℤ) ≤ b.maxFrames →
      (a.feedCreate c tick ps pe).2 = (b.feedCreate c tick ps pe).2 ∧ Trails (a.feedCreate c tick ps pe).1 (b.feedCreate c tick ps pe).1 ∧
      (b.feedCreate c tick ps pe).1.maxFrames = b.maxFrames := by
    intro a b h hm ps pe hM
    obtain ⟨e1, e2, -⟩ := create_made h.ia hm c tick ps pe
    obtain ⟨k1, k2, k3⟩ := h.create hm (by rw [e2] at hM; push_cast at hM; exact hM) c tick ps pe
    exact ⟨e1.trans k1.symm, k2, k3⟩
  unfold tunedFeed at hM ⊢
  rw [← h.unit]
  have hot : a.overTick c tick = b.overTick c tick := by
    unfold FrameSet.overTick
    rcases h.current with ⟨h1, h2⟩ | ⟨i, f, g, h1, h2, h3, -, -⟩
    · rw [h1, h2]
    · have : f.nbTicks = g.nbTicks := congrArg Snap.nb h3
      rw [h1, h2]
      simp only [this, h.qty]
  have hov : a.overTimed tick = b.overTimed tick := by
    unfold FrameSet.overTimed
    rcases h.current with ⟨h1, h2⟩ | ⟨i, f, g, h1, h2, h3, -, -⟩
    · rw [h1, h2]
    · have : f.periodEnd = g.periodEnd := congrArg Snap.stop h3
      rw [h1, h2]
      simp only [this]
  rw [← hot, ← hov]
  split_ifs at hM ⊢
  · exact hcre h hm _ _ hM
  · exact h.add c tick
  · rcases hx : a.overTimed tick with e | over
    · exact ⟨rfl, h, rfl⟩
    · simp only [hx] at hM ⊢
      split_ifs at hM ⊢
      · unfold tunedTimed at hM ⊢
        simp only [← h.unit, ← h.qty, ← fillFuel_trails h]
        rcases hs : frameStart a.unit a.qty tick.dt.wall with e | ps
        · exact ⟨rfl, h, rfl⟩
        · simp only [hs] at hM ⊢
          obtain ⟨q1, q2, q3⟩ := fill_made step c ps (fillFuel a ps) a h.ia hm
          have hsmall : ((tunedFill step c ps (fillFuel a ps) a).1.heap.length : ℤ) ≤ b.maxFrames := by
            generalize tunedFill step c ps (fillFuel a ps) a = r at *
            obtain ⟨a', err⟩ := r
            rcases err with _ | e
            · simp only at hM q1 q2 ⊢
              have := (create_made q2 (by rw [q1.limit]; exact hm) c tick ps (some (frameEnd c.zone a.unit step ps))).2.1
              rw [this] at hM
              push_cast at hM
              omega
            · exact hM
          obtain ⟨k1, k2, k3⟩ := h.fill step c ps (fillFuel a ps) a b hm hsmall
          generalize tunedFill step c ps (fillFuel a ps) a = r at *
          generalize tunedFill step c ps (fillFuel a ps) b = r' at *
          obtain ⟨a', err⟩ := r
          obtain ⟨b', err'⟩ := r'
          simp only at k1
          subst k1
          rcases err with _ | e
          · simp only at hM k2 k3 q1 ⊢
            obtain ⟨z1, z2, z3⟩ := hcre k2 (by rw [q1.limit]; exact hm) ps (some (frameEnd c.zone a.unit step ps)) (by rw [k3]; exact hM)
            exact ⟨z1, z2, z3.trans k3⟩
          · exact ⟨rfl, k2, k3⟩
      · exact h.add c tick

/-! ## Frame sets without indicators as the list of the frames ever made -/

/-- The frames in memory are the youngest ones, at least one if any was made. -/
structure Youngest (a : FrameSet) : Prop where
  ind : a.indicators = []
  lim : 1 ≤ a.maxFrames
  part : ∃ d, a.frames = (List.range a.heap.length).drop d ∧ (d < a.heap.length ∨ a.heap = [] ∧ d = 0)

def FrameSet.hist (a : FrameSet) : List (Snap Tick) := a.heap.map Frame.snap

theorem view_from : ∀ (l pre : List Frame), (List.range' pre.length l.length).filterMap (fun i => (pre ++ l)[i]?) = l
  | [], pre => by simp
  | x :: l, pre => by
    have ih := view_from l (pre ++ [x])
    rw [List.length_cons, List.range'_succ, List.filterMap_cons]
    have : (pre ++ x :: l)[pre.length]? = some x := by simp
    simp only [this]
    rw [List.length_append, List.length_singleton, List.append_assoc, List.singleton_append] at ih
    rw [ih]

theorem view_range (heap : List Frame) (d : ℕ) (hd : d ≤ heap.length) :
    ((List.range heap.length).drop d).filterMap (fun i => heap[i]?) = heap.drop d := by
  have := view_from (heap.drop d) (heap.take d)
  rw [List.take_append_drop, List.length_take_of_le hd, List.length_drop] at this
  rw [List.range_eq_range', List.drop_range']
  simpa using this

theorem Youngest.view {a : FrameSet} (h : Youngest a) : ∃ d, a.view.map Frame.snap = a.hist.drop d ∧ (d < a.hist.length ∨ a.hist = [] ∧ d = 0) ∧
    a.view.length = a.frames.length := by
  obtain ⟨d, h1, h2⟩ := h.part
  have e : a.view = a.heap.drop d := by unfold FrameSet.view; rw [h1, view_range _ _ (by rcases h2 with h2 | ⟨-, h2⟩ <;> omega)]
  refine ⟨d, by rw [e, FrameSet.hist, List.map_drop], ?_, by rw [e, h1]; simp⟩
  unfold FrameSet.hist
  rcases h2 with h2 | ⟨h2, h3⟩
  · left; simpa using h2
  · right; exact ⟨by rw [h2]; rfl, h3⟩

theorem Youngest.current {a : FrameSet} (h : Youngest a) :
    (a.current = none ∧ a.heap = []) ∨ ∃ pre f, a.heap = pre ++ [f] ∧ a.current = some (pre.length, f) := by
  obtain ⟨d, h1, h2 | ⟨h2, h3⟩⟩ := h.part
  · right
    rcases List.eq_nil_or_concat a.heap with e | ⟨pre, f, e⟩
    · rw [e] at h2; simp at h2
    · rw [List.concat_eq_append] at e
      refine ⟨pre, f, by rw [e], ?_⟩
      have hl : a.frames.getLast? = some pre.length := by
        rw [h1, List.getLast?_drop, if_neg (by simp; omega), e, List.length_append, List.length_singleton, List.range_succ]
        simp
      unfold FrameSet.current
      rw [hl]
      simp [e]
  · left
    refine ⟨?_, h2⟩
    unfold FrameSet.current
    rw [h1, h2]; simp

theorem Youngest.create {a : FrameSet} (h : Youngest a) (c : Ctx) (tick : Tick) (ps : ℤ) (pe : Option ℤ) :
    Youngest (a.feedCreate c tick ps pe).1 ∧ (a.feedCreate c tick ps pe).1.hist = a.hist ++ [⟨ps, pe, 1, tick, tick, tick, tick⟩] ∧
      (a.feedCreate c tick ps pe).2 = none ∧ (a.feedCreate c tick ps pe).1.unit = a.unit ∧ (a.feedCreate c tick ps pe).1.qty = a.qty ∧
      (a.feedCreate c tick ps pe).1.maxFrames = a.maxFrames := by
  rw [feedCreate_nil h.ind]
  obtain ⟨g1, g2, g3⟩ := feedClean_drop h.lim (a.frames ++ [a.heap.length])
    (linkNext a.heap a.frames.getLast? a.heap.length ++ [Frame.fresh tick ps pe a.frames.getLast?])
  have hh : (feedClean a.maxFrames (linkNext a.heap a.frames.getLast? a.heap.length ++ [Frame.fresh tick ps pe a.frames.getLast?])
      (a.frames ++ [a.heap.length])).1.1.map Frame.snap = a.hist ++ [⟨ps, pe, 1, tick, tick, tick, tick⟩] := by
    rw [g3, List.map_append, linkNext_snap]; rfl
  have hlen := congrArg List.length hh
  simp only [List.length_map, List.length_append, List.length_cons, List.length_nil, FrameSet.hist] at hlen
  refine ⟨⟨h.ind, h.lim, ?_⟩, hh, g1, rfl, rfl, rfl⟩
  obtain ⟨d, d1, d2⟩ := h.part
  have d3 : d ≤ a.heap.length := by
    rcases d2 with d2 | ⟨-, d2⟩ <;> omega
  have hal : a.frames.length = a.heap.length - d := by rw [d1, List.length_drop, List.length_range]
  have hl := h.lim
  refine ⟨d + ((a.frames ++ [a.heap.length]).length - a.maxFrames.toNat), ?_, ?_⟩
  · simp only
    have e : (List.range a.heap.length ++ [a.heap.length]).drop d = a.frames ++ [a.heap.length] := by
      rw [List.drop_append_of_le_length (by simpa using d3), ← d1]
    rw [g2, hlen, List.range_succ, ← List.drop_drop, e]
  · left
    simp only [List.length_append, List.length_cons, List.length_nil]
    rw [hlen]
    omega

/-- `Frame.track` on what a program sees of a frame. -/
def Snap.take (f : Snap Tick) (t : Tick) : Snap Tick := { f with
  nb := f.nb + 1
  last := t
  high := if f.high.value < t.value then t else f.high
  low := if f.high.value < t.value then f.low else if t.value < f.low.value then t else f.low }

theorem track_take (f : Frame) (t : Tick) : (f.track t).snap = f.snap.take t := by
  unfold Frame.track Snap.take
  simp only [Frame.snap]
  by_cases h1 : f.high.value < t.value
  · simp only [h1, if_true]
  · by_cases h2 : t.value < f.low.value
    · simp only [h1, h2, if_true, if_false]
    · simp only [h1, h2, if_false]

theorem Youngest.add {a : FrameSet} (h : Youngest a) (c : Ctx) (tick : Tick) :
    Youngest (a.feedLast c tick).1 ∧ (a.feedLast c tick).2 = none ∧ (a.feedLast c tick).1.unit = a.unit ∧ (a.feedLast c tick).1.qty = a.qty ∧
      (a.feedLast c tick).1.maxFrames = a.maxFrames ∧
      ∀ pre f, a.hist = pre ++ [f] → (a.feedLast c tick).1.hist = pre ++ [f.take tick] := by
  rw [feedLast_nil h.ind]
  rcases h.current with ⟨h1, h2⟩ | ⟨pre, f, h1, h2⟩
  · rw [h1]
    refine ⟨h, rfl, rfl, rfl, rfl, ?_⟩
    intro pre f e
    rw [FrameSet.hist, h2] at e
    simp at e
  · rw [h2]
    refine ⟨⟨h.ind, h.lim, ?_⟩, rfl, rfl, rfl, rfl, ?_⟩
    · obtain ⟨d, d1, d2⟩ := h.part
      refine ⟨d, by simpa using d1, ?_⟩
      rcases d2 with d2 | ⟨d2, -⟩
      · left; simpa using d2
      · rw [h1] at d2; simp at d2
    · intro pre' f' e
      rw [FrameSet.hist, h1, List.map_append, List.map_singleton] at e
      obtain ⟨e1, e2⟩ := List.append_inj' e rfl
      simp only [FrameSet.hist]
      rw [h1, List.set_append_right _ _ le_rfl, Nat.sub_self, List.set_cons_zero, List.map_append, List.map_singleton, e1, track_take,
        List.singleton_inj.mp e2]

theorem Youngest.stop {a : FrameSet} (h : Youngest a) {pre : List (Snap Tick)} {f : Snap Tick} (e : a.hist = pre ++ [f]) :
    ∃ g, a.current = some (pre.length, g) ∧ g.snap = f := by
  rcases h.current with ⟨-, h2⟩ | ⟨pre', g, h1, h2⟩
  · rw [FrameSet.hist, h2] at e; simp at e
  · rw [FrameSet.hist, h1, List.map_append, List.map_singleton] at e
    obtain ⟨e1, e2⟩ := List.append_inj' e rfl
    refine ⟨g, ?_, List.singleton_inj.mp e2⟩
    rw [h2, ← e1, List.length_map]

/-- The gap filling ends, for a step forward; the frames it makes have ends and start before `ps`. -/
theorem Youngest.fill {step : ℤ} (hq : 0 < step) {c : Ctx} (hz : ∀ x, x ≤ c.zone.resolve x) (ps : ℤ) : ∀ (n : ℕ) (a : FrameSet) (pre : List (Snap Tick))
    (f : Snap Tick) (pe : ℤ), Youngest a → a.unit ≠ .tick → a.hist = pre ++ [f] → f.stop = some pe → (ps - pe).toNat ≤ n →
    (tunedFill step c ps n a).2 = none ∧ Youngest (tunedFill step c ps n a).1 ∧ (tunedFill step c ps n a).1.unit = a.unit ∧
      (tunedFill step c ps n a).1.qty = a.qty := by
  intro n
  induction n with
  | zero =>
    intro a pre f pe h hu e hs hn
    obtain ⟨g, g1, g2⟩ := h.stop e
    have g3 : g.periodEnd = some pe := by rw [← hs, ← g2]; rfl
    unfold tunedFill
    rw [g1]
    simp only [g3]
    rw [if_neg (by omega)]
    exact ⟨rfl, h, rfl, rfl⟩
  | succ n ih =>
    intro a pre f pe h hu e hs hn
    obtain ⟨g, g1, g2⟩ := h.stop e
    have g3 : g.periodEnd = some pe := by rw [← hs, ← g2]; rfl
    unfold tunedFill
    rw [g1]
    simp only [g3]
    split_ifs with hlt
    · obtain ⟨k1, k2, k3, k4, k5, -⟩ := h.create c g.last pe (some (frameEnd c.zone a.unit step pe))
      have hgt := frameEnd_gt hz hu hq pe
      generalize a.feedCreate c g.last pe (some (frameEnd c.zone a.unit step pe)) = r at *
      obtain ⟨a', err⟩ := r
      simp only at k1 k2 k3 k4 k5
      subst k3
      simp only
      obtain ⟨z1, z2, z3, z4⟩ := ih a' _ _ _ k1 (by rw [k4]; exact hu) k2 rfl (by omega)
      exact ⟨z1, z2, z3.trans k4, z4.trans k5⟩
    · exact ⟨rfl, h, rfl, rfl⟩

theorem shiftMonths_mono (w : ℤ) {n m : ℤ} (h : n ≤ m) : shiftMonths w n ≤ shiftMonths w m := by
  rcases h.lt_or_eq with h | rfl
  · obtain ⟨d, -, h2, h3⟩ := shiftMonths_eq w n
    obtain ⟨d', k1, -, k3⟩ := shiftMonths_eq w m
    have hm : mfirst (midx (ordOf w) + n + 1) ≤ mfirst (midx (ordOf w) + m) := mfirst_strictMono.monotone (by omega)
    rw [mfirst_succ] at hm
    rw [h3, k3]
    have hd : (0 : ℤ) < dayUs := by decide
    have : mfirst (midx (ordOf w) + n) + (d - 1) ≤ mfirst (midx (ordOf w) + m) + (d' - 1) := by omega
    nlinarith
  · exact le_rfl

theorem shiftUnit_mono (u : Unit') {q q' : ℤ} (h : q ≤ q') (w : ℤ) : shiftUnit u q w ≤ shiftUnit u q' w := by
  cases u with
  | tick => exact le_rfl
  | month => exact shiftMonths_mono w h
  | year => exact shiftMonths_mono w (by omega)
  | _ => simp only [shiftUnit, dayUs, hourUs, minUs, secUs]; omega


end

end Estrade
