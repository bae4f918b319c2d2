import Verif.Objects
import Verif.Lemmas.Registry
import Verif.History

/-!
# Frames of tick objects
-/

set_option autoImplicit false
set_option linter.unusedSectionVars false

namespace Estrade

/-- What does not depend on quotes: period, number of ticks, first and last object. -/
def Snap.shape {α : Type} (f : Snap α) : ℤ × Option ℤ × ℕ × α × α := (f.start, f.stop, f.nb, f.first, f.last)

section
variable [Arith]

theorem cleanSnaps_rel {α : Type} (g : Snap ℕ → α) (max : ℤ) : ∀ (l l' : List (Snap ℕ)), l.map g = l'.map g →
    (cleanSnaps max l).1.map g = (cleanSnaps max l').1.map g ∧ (cleanSnaps max l).2 = (cleanSnaps max l').2
  | [], l', h => by
    rw [List.map_nil, eq_comm, List.map_eq_nil_iff] at h
    subst h; exact ⟨rfl, rfl⟩
  | [a], l', h => by
    rcases l' with _ | ⟨b, _ | ⟨c, r⟩⟩
    · simp at h
    · exact ⟨h, rfl⟩
    · simp at h
  | a :: b :: rest, l', h => by
    rcases l' with _ | ⟨c, _ | ⟨d, rest'⟩⟩
    · simp at h
    · simp at h
    · have hl : (a :: b :: rest).length = (c :: d :: rest').length := by simpa using congrArg List.length h
      unfold cleanSnaps
      rw [hl]
      split_ifs with hm
      · exact cleanSnaps_rel g max (b :: rest) (d :: rest') (by simp only [List.map_cons, List.cons.injEq] at h ⊢; exact h.2)
      · exact ⟨h, rfl⟩

theorem cleanSnaps_mem (max : ℤ) : ∀ (l : List (Snap ℕ)) (f : Snap ℕ), f ∈ (cleanSnaps max l).1 → f ∈ l
  | [], f, h => h
  | [a], f, h => h
  | a :: b :: rest, f, h => by
    unfold cleanSnaps at h
    split_ifs at h with hm
    · exact List.mem_cons_of_mem _ (cleanSnaps_mem max _ f h)
    · exact h

/-! ## Assignments do not touch the shape -/

/-- Same frames but for the choice of the highest and lowest tick. -/
structure Alike (s s' : ObjSet) : Prop where
  unit : s.unit = s'.unit
  qty : s.qty = s'.qty
  max : s.maxFrames = s'.maxFrames
  dt : ∀ i, (s.obj i).dt = (s'.obj i).dt
  frames : s.frames.map Snap.shape = s'.frames.map Snap.shape

theorem Alike.refl (s : ObjSet) : Alike s s := ⟨rfl, rfl, rfl, fun _ => rfl, rfl⟩

theorem Alike.last {s s' : ObjSet} (h : Alike s s') :
    s.frames.getLast?.map Snap.shape = s'.frames.getLast?.map Snap.shape := by
  rw [← List.getLast?_map, ← List.getLast?_map, h.frames]

theorem Alike.cases {s s' : ObjSet} (h : Alike s s') :
    (s.frames.getLast? = none ∧ s'.frames.getLast? = none) ∨
    ∃ f f', s.frames.getLast? = some f ∧ s'.frames.getLast? = some f' ∧ f.shape = f'.shape := by
  have hl := h.last
  rcases h1 : s.frames.getLast? with _ | f <;> rcases h2 : s'.frames.getLast? with _ | f' <;> rw [h1, h2] at hl
  · exact .inl ⟨rfl, rfl⟩
  · cases hl
  · cases hl
  · exact .inr ⟨f, f', rfl, rfl, Option.some.inj hl⟩

theorem Alike.create {s s' : ObjSet} (h : Alike s s') (i : ℕ) (ps : ℤ) (pe : Option ℤ) :
    Alike (s.create i ps pe).1 (s'.create i ps pe).1 ∧ (s.create i ps pe).2 = (s'.create i ps pe).2 := by
  have hc := cleanSnaps_rel Snap.shape s'.maxFrames (s.frames ++ [Snap.fresh i ps pe]) (s'.frames ++ [Snap.fresh i ps pe])
    (by rw [List.map_append, List.map_append, h.frames])
  unfold ObjSet.create
  rw [h.max]
  exact ⟨⟨h.unit, h.qty, rfl, h.dt, hc.1⟩, hc.2⟩

theorem Alike.fill (c : Ctx) (ps : ℤ) : ∀ (fuel : ℕ) {s s' : ObjSet} (_ : Alike s s'),
    Alike (s.fill c ps fuel).1 (s'.fill c ps fuel).1 ∧ (s.fill c ps fuel).2 = (s'.fill c ps fuel).2 := by
  intro fuel
  induction fuel with
  | zero =>
    intro s s' h
    rcases h.cases with ⟨h1, h2⟩ | ⟨f, f', h1, h2, h3⟩
    · unfold ObjSet.fill; rw [h1, h2]; exact ⟨h, rfl⟩
    · have hs : f.stop = f'.stop := congrArg (·.2.1) h3
      unfold ObjSet.fill
      rw [h1, h2]
      simp only [hs]
      rcases f'.stop with _ | pe
      · exact ⟨h, rfl⟩
      · simp only
        split_ifs
        · exact ⟨h, rfl⟩
        · exact ⟨h, rfl⟩
  | succ n ih =>
    intro s s' h
    rcases h.cases with ⟨h1, h2⟩ | ⟨f, f', h1, h2, h3⟩
    · unfold ObjSet.fill; rw [h1, h2]; exact ⟨h, rfl⟩
    · have hs : f.stop = f'.stop := congrArg (·.2.1) h3
      have hla : f.last = f'.last := congrArg (·.2.2.2.2) h3
      unfold ObjSet.fill
      rw [h1, h2]
      simp only [hs, hla, h.unit, h.qty]
      rcases f'.stop with _ | pe
      · exact ⟨h, rfl⟩
      · simp only
        split_ifs
        · obtain ⟨g1, g2⟩ := h.create f'.last pe (some (frameEnd c.zone s'.unit s'.qty pe))
          rcases hr : s.create f'.last pe (some (frameEnd c.zone s'.unit s'.qty pe)) with ⟨r, o⟩
          rcases hr' : s'.create f'.last pe (some (frameEnd c.zone s'.unit s'.qty pe)) with ⟨r', o'⟩
          rw [hr, hr'] at g1 g2
          simp only at g1 g2
          subst g2
          rcases o with _ | e
          · exact ih g1
          · exact ⟨g1, rfl⟩
        · exact ⟨h, rfl⟩

theorem ObjSet.create_fields (s : ObjSet) (i : ℕ) (ps : ℤ) (pe : Option ℤ) :
    (s.create i ps pe).1.unit = s.unit ∧ (s.create i ps pe).1.qty = s.qty ∧
    (s.create i ps pe).1.maxFrames = s.maxFrames ∧ (s.create i ps pe).1.obj = s.obj := ⟨rfl, rfl, rfl, rfl⟩

theorem ObjSet.fill_fields (c : Ctx) (ps : ℤ) : ∀ (fuel : ℕ) (s : ObjSet),
    (s.fill c ps fuel).1.unit = s.unit ∧ (s.fill c ps fuel).1.qty = s.qty ∧
    (s.fill c ps fuel).1.maxFrames = s.maxFrames ∧ (s.fill c ps fuel).1.obj = s.obj := by
  intro fuel
  induction fuel with
  | zero =>
    intro s
    unfold ObjSet.fill
    rcases s.frames.getLast? with _ | f
    · exact ⟨rfl, rfl, rfl, rfl⟩
    · simp only
      rcases f.stop with _ | pe
      · exact ⟨rfl, rfl, rfl, rfl⟩
      · simp only; split_ifs <;> exact ⟨rfl, rfl, rfl, rfl⟩
  | succ n ih =>
    intro s
    unfold ObjSet.fill
    rcases s.frames.getLast? with _ | f
    · exact ⟨rfl, rfl, rfl, rfl⟩
    · simp only
      rcases f.stop with _ | pe
      · exact ⟨rfl, rfl, rfl, rfl⟩
      · simp only
        split_ifs
        · have hf := s.create_fields f.last pe (some (frameEnd c.zone s.unit s.qty pe))
          rcases hr : s.create f.last pe (some (frameEnd c.zone s.unit s.qty pe)) with ⟨r, o⟩
          rw [hr] at hf
          rcases o with _ | e
          · obtain ⟨i1, i2, i3, i4⟩ := ih r
            exact ⟨i1.trans hf.1, i2.trans hf.2.1, i3.trans hf.2.2.1, i4.trans hf.2.2.2⟩
          · exact hf
        · exact ⟨rfl, rfl, rfl, rfl⟩

theorem Alike.timed {s s' : ObjSet} (h : Alike s s') (c : Ctx) (i : ℕ) :
    Alike (s.timed c i).1 (s'.timed c i).1 ∧ (s.timed c i).2 = (s'.timed c i).2 := by
  unfold ObjSet.timed
  rw [h.dt i, h.unit, h.qty]
  rcases frameStart s'.unit s'.qty (s'.obj i).dt.wall with e | ps
  · exact ⟨h, rfl⟩
  · have hfu : s.fuel ps = s'.fuel ps := by
      unfold ObjSet.fuel
      rcases h.cases with ⟨h1, h2⟩ | ⟨f, f', h1, h2, h3⟩
      · rw [h1, h2]
      · simp only [h1, h2, show f.stop = f'.stop from congrArg (·.2.1) h3]
    simp only [hfu]
    obtain ⟨g1, g2⟩ := Alike.fill c ps (s'.fuel ps) h
    rcases hr : s.fill c ps (s'.fuel ps) with ⟨r, o⟩
    rcases hr' : s'.fill c ps (s'.fuel ps) with ⟨r', o'⟩
    rw [hr, hr'] at g1 g2
    simp only at g1 g2
    subst g2
    rcases o with _ | e
    · exact g1.create i ps _
    · exact ⟨g1, rfl⟩

theorem Snap.track_shape (obj : ℕ → Tick) (f : Snap ℕ) (i : ℕ) :
    (f.track obj i).shape = (f.start, f.stop, f.nb + 1, f.first, i) := by
  unfold Snap.track
  simp only
  split_ifs <;> rfl

theorem Alike.addLast {s s' : ObjSet} (h : Alike s s') (i : ℕ) :
    Alike (s.addLast i).1 (s'.addLast i).1 ∧ (s.addLast i).2 = (s'.addLast i).2 := by
  unfold ObjSet.addLast
  rcases h.cases with ⟨h1, h2⟩ | ⟨f, f', h1, h2, h3⟩
  · rw [h1, h2]; exact ⟨h, rfl⟩
  · rw [h1, h2]
    refine ⟨⟨h.unit, h.qty, h.max, h.dt, ?_⟩, rfl⟩
    change (s.frames.dropLast ++ [f.track s.obj i]).map Snap.shape = (s'.frames.dropLast ++ [f'.track s'.obj i]).map Snap.shape
    rw [List.map_append, List.map_append, List.map_dropLast, List.map_dropLast, h.frames]
    simp only [List.map_cons, List.map_nil, Snap.track_shape]
    simp only [Snap.shape, Prod.mk.injEq] at h3
    rw [h3.1, h3.2.1, h3.2.2.1, h3.2.2.2.1]

theorem Alike.feed {s s' : ObjSet} (h : Alike s s') (c : Ctx) (i : ℕ) :
    Alike (s.feed c i).1 (s'.feed c i).1 ∧ (s.feed c i).2 = (s'.feed c i).2 := by
  have ho : s.overTick c i = s'.overTick c i := by
    unfold ObjSet.overTick
    rcases h.cases with ⟨h1, h2⟩ | ⟨f, f', h1, h2, h3⟩
    · rw [h1, h2]
    · simp only [h1, h2, h.dt i, h.qty, show f.nb = f'.nb from congrArg (·.2.2.1) h3]
  have ht : s.overTimed i = s'.overTimed i := by
    unfold ObjSet.overTimed
    rcases h.cases with ⟨h1, h2⟩ | ⟨f, f', h1, h2, h3⟩
    · rw [h1, h2]
    · simp only [h1, h2, h.dt i, show f.stop = f'.stop from congrArg (·.2.1) h3]
  unfold ObjSet.feed
  rw [ho, ht, h.unit]
  split_ifs
  · rw [h.dt i]; exact h.create i _ _
  · exact h.addLast i
  · rcases s'.overTimed i with e | b
    · exact ⟨h, rfl⟩
    · simp only
      split_ifs
      · exact h.timed c i
      · exact h.addLast i

theorem Tick.setBid_dt {t t' : Tick} {v : PyVal} (h : t.setBid v = .ok t') : t'.dt = t.dt := by
  unfold Tick.setBid at h
  rcases hv : v.toFloat with e | b <;> rw [hv] at h
  · cases h
  · cases h; rfl

theorem Tick.setAsk_dt {t t' : Tick} {v : PyVal} (h : t.setAsk v = .ok t') : t'.dt = t.dt := by
  unfold Tick.setAsk at h
  rcases hv : v.toFloat with e | b <;> rw [hv] at h
  · cases h
  · cases h; rfl

theorem Alike.put {s s' : ObjSet} (h : Alike s s') (i : ℕ) (o : Except PyErr Tick) (ho : ∀ t, o = .ok t → t.dt = (s.obj i).dt) :
    Alike (s.put i o).1 s' := by
  rcases o with e | t
  · exact h
  · refine ⟨h.unit, h.qty, h.max, fun j => ?_, h.frames⟩
    change (if j = i then t else s.obj j).dt = _
    split_ifs with hj
    · rw [ho t rfl, hj]; exact h.dt i
    · exact h.dt j

/-! ## Only the objects that were fed matter -/

/-- All ticks of all frames are in `K`. -/
def Within (K : ℕ → Prop) (l : List (Snap ℕ)) : Prop := ∀ f ∈ l, K f.first ∧ K f.high ∧ K f.low ∧ K f.last

theorem Within.last {K : ℕ → Prop} {l : List (Snap ℕ)} (h : Within K l) {f : Snap ℕ} (hf : l.getLast? = some f) :
    K f.first ∧ K f.high ∧ K f.low ∧ K f.last := h f (List.mem_of_getLast? hf)

theorem Within.create {K : ℕ → Prop} {s : ObjSet} (h : Within K s.frames) {i : ℕ} (hi : K i) (ps : ℤ) (pe : Option ℤ) :
    Within K (s.create i ps pe).1.frames := by
  intro f hf
  rcases List.mem_append.1 (cleanSnaps_mem _ _ f hf) with h1 | h1
  · exact h f h1
  · rw [List.mem_singleton.1 h1]; exact ⟨hi, hi, hi, hi⟩

theorem Within.fill {K : ℕ → Prop} (c : Ctx) (ps : ℤ) : ∀ (fuel : ℕ) {s : ObjSet} (_ : Within K s.frames),
    Within K (s.fill c ps fuel).1.frames := by
  intro fuel
  induction fuel with
  | zero =>
    intro s h
    unfold ObjSet.fill
    rcases s.frames.getLast? with _ | f
    · exact h
    · simp only
      rcases f.stop with _ | pe
      · exact h
      · simp only; split_ifs <;> exact h
  | succ n ih =>
    intro s h
    unfold ObjSet.fill
    rcases hf : s.frames.getLast? with _ | f
    · exact h
    · simp only
      rcases f.stop with _ | pe
      · exact h
      · simp only
        split_ifs
        · have hc := h.create (h.last hf).2.2.2 pe (some (frameEnd c.zone s.unit s.qty pe))
          rcases hr : s.create f.last pe (some (frameEnd c.zone s.unit s.qty pe)) with ⟨r, o⟩
          rw [hr] at hc
          rcases o with _ | e
          · exact ih hc
          · exact hc
        · exact h

theorem Within.track {K : ℕ → Prop} {f : Snap ℕ} (h : K f.first ∧ K f.high ∧ K f.low ∧ K f.last) (obj : ℕ → Tick) {i : ℕ}
    (hi : K i) : K (f.track obj i).first ∧ K (f.track obj i).high ∧ K (f.track obj i).low ∧ K (f.track obj i).last := by
  unfold Snap.track
  simp only
  split_ifs
  · exact ⟨h.1, hi, h.2.2.1, hi⟩
  · exact ⟨h.1, h.2.1, hi, hi⟩
  · exact ⟨h.1, h.2.1, h.2.2.1, hi⟩

theorem Within.addLast {K : ℕ → Prop} {s : ObjSet} (h : Within K s.frames) {i : ℕ} (hi : K i) :
    Within K (s.addLast i).1.frames := by
  unfold ObjSet.addLast
  rcases hf : s.frames.getLast? with _ | f
  · exact h
  · intro g hg
    rcases List.mem_append.1 hg with h1 | h1
    · exact h g (List.dropLast_subset _ h1)
    · rw [List.mem_singleton.1 h1]; exact Within.track (h.last hf) s.obj hi

theorem Within.feed {K : ℕ → Prop} {s : ObjSet} (h : Within K s.frames) (c : Ctx) {i : ℕ} (hi : K i) :
    Within K (s.feed c i).1.frames := by
  unfold ObjSet.feed
  split_ifs
  · exact h.create hi _ _
  · exact h.addLast hi
  · rcases s.overTimed i with e | b
    · exact h
    · simp only
      split_ifs
      · unfold ObjSet.timed
        rcases frameStart s.unit s.qty (s.obj i).dt.wall with e | ps
        · exact h
        · have hc := Within.fill c ps (s.fuel ps) h
          simp only
          rcases hr : s.fill c ps (s.fuel ps) with ⟨r, o⟩
          rw [hr] at hc
          rcases o with _ | e
          · exact hc.create hi _ _
          · exact hc
      · exact h.addLast hi

theorem ObjSet.feed_obj (s : ObjSet) (c : Ctx) (i : ℕ) : (s.feed c i).1.obj = s.obj := by
  unfold ObjSet.feed
  have ha : (s.addLast i).1.obj = s.obj := by
    unfold ObjSet.addLast; rcases s.frames.getLast? with _ | f <;> rfl
  split_ifs
  · rfl
  · exact ha
  · rcases s.overTimed i with e | b
    · rfl
    · simp only
      split_ifs
      · unfold ObjSet.timed
        rcases frameStart s.unit s.qty (s.obj i).dt.wall with e | ps
        · rfl
        · have hc := ObjSet.fill_fields c ps (s.fuel ps) s
          simp only
          rcases hr : s.fill c ps (s.fuel ps) with ⟨r, o⟩
          rw [hr] at hc
          rcases o with _ | e
          · exact hc.2.2.2
          · exact hc.2.2.2
      · exact ha

theorem ObjSet.create_obj (s : ObjSet) (o : ℕ → Tick) (i : ℕ) (ps : ℤ) (pe : Option ℤ) :
    ({ s with obj := o } : ObjSet).create i ps pe = ({ (s.create i ps pe).1 with obj := o }, (s.create i ps pe).2) := rfl

theorem ObjSet.fill_obj (c : Ctx) (ps : ℤ) (o : ℕ → Tick) : ∀ (fuel : ℕ) (s : ObjSet),
    ({ s with obj := o } : ObjSet).fill c ps fuel = ({ (s.fill c ps fuel).1 with obj := o }, (s.fill c ps fuel).2) := by
  intro fuel
  induction fuel with
  | zero =>
    intro s
    unfold ObjSet.fill
    simp only
    rcases s.frames.getLast? with _ | f
    · rfl
    · simp only
      rcases f.stop with _ | pe
      · rfl
      · simp only; split_ifs <;> rfl
  | succ n ih =>
    intro s
    unfold ObjSet.fill
    simp only
    rcases s.frames.getLast? with _ | f
    · rfl
    · simp only
      rcases f.stop with _ | pe
      · rfl
      · simp only
        split_ifs
        · rw [ObjSet.create_obj]
          rcases hr : s.create f.last pe (some (frameEnd c.zone s.unit s.qty pe)) with ⟨r, x⟩
          rcases x with _ | e
          · exact ih r
          · rfl
        · rfl

theorem ObjSet.feed_agree (s : ObjSet) (o : ℕ → Tick) {K : ℕ → Prop} (h : Within K s.frames) (c : Ctx) {i : ℕ} (hi : K i)
    (ho : ∀ j, K j → o j = s.obj j) :
    ({ s with obj := o } : ObjSet).feed c i = ({ (s.feed c i).1 with obj := o }, (s.feed c i).2) := by
  have ha : ({ s with obj := o } : ObjSet).addLast i = ({ (s.addLast i).1 with obj := o }, (s.addLast i).2) := by
    unfold ObjSet.addLast
    simp only
    rcases hf : s.frames.getLast? with _ | f
    · rfl
    · have hk := h.last hf
      have : f.track o i = f.track s.obj i := by
        unfold Snap.track
        simp only [ho _ hi, ho _ hk.2.1, ho _ hk.2.2.1]
      simp only [this]
  have h1 : ({ s with obj := o } : ObjSet).overTick c i = s.overTick c i := by
    unfold ObjSet.overTick; simp only [ho i hi]
  have h2 : ({ s with obj := o } : ObjSet).overTimed i = s.overTimed i := by
    unfold ObjSet.overTimed; simp only [ho i hi]
  unfold ObjSet.feed
  rw [h1, h2]
  simp only [ho i hi]
  split_ifs
  · rfl
  · exact ha
  · rcases s.overTimed i with e | b
    · rfl
    · simp only
      split_ifs
      · unfold ObjSet.timed
        simp only [ho i hi]
        rcases frameStart s.unit s.qty (s.obj i).dt.wall with e | ps
        · rfl
        · have hfu : ({ s with obj := o } : ObjSet).fuel ps = s.fuel ps := rfl
          simp only [hfu, ObjSet.fill_obj]
          rcases hr : s.fill c ps (s.fuel ps) with ⟨r, x⟩
          rcases x with _ | e
          · rfl
          · rfl
      · exact ha

/-! ## Without assignments: `Frame.lean` -/

/-- `fs` shows the frames of `s` with the ticks that the objects are. -/
structure Shows (s : ObjSet) (fs : FrameSet) : Prop where
  unit : fs.unit = s.unit
  qty : fs.qty = s.qty
  max : fs.maxFrames = s.maxFrames
  inds : fs.indicators = []
  nodup : fs.frames.Nodup
  frames : fs.frames.map (fun i => (fs.heap.map Frame.snap)[i]?) = s.frames.map (fun f => some (f.map s.obj))

theorem Shows.view {s : ObjSet} {fs : FrameSet} (h : Shows s fs) : fs.view.map Frame.snap = s.frames.map (Snap.map s.obj) := by
  have h1 := congrArg (List.filterMap id) h.frames
  rw [List.filterMap_map, List.filterMap_map] at h1
  unfold FrameSet.view
  rw [List.map_filterMap]
  have h2 : List.filterMap (id ∘ fun f => some (Snap.map s.obj f)) s.frames = s.frames.map (Snap.map s.obj) := by
    rw [← List.filterMap_eq_map]; rfl
  rw [← h2, ← h1]
  apply List.filterMap_congr
  intro i _
  simp [List.getElem?_map]

theorem feedClean_shows {α : Type} (g : ℕ → α) (k : Snap ℕ → α) (max : ℤ) : ∀ (ids : List ℕ) (heap : List Frame)
    (l : List (Snap ℕ)), ids.map g = l.map k →
    (feedClean max heap ids).1.2.map g = (cleanSnaps max l).1.map k ∧
    (feedClean max heap ids).2 = (cleanSnaps max l).2 ∧
    (feedClean max heap ids).1.1.map Frame.snap = heap.map Frame.snap ∧
    (feedClean max heap ids).1.2.Sublist ids
  | [], heap, l, h => by
    rw [List.map_nil, eq_comm, List.map_eq_nil_iff] at h
    subst h; exact ⟨rfl, rfl, rfl, List.Sublist.refl _⟩
  | [a], heap, l, h => by
    rcases l with _ | ⟨b, _ | ⟨c, r⟩⟩
    · simp at h
    · exact ⟨h, rfl, rfl, List.Sublist.refl _⟩
    · simp at h
  | a :: b :: rest, heap, l, h => by
    rcases l with _ | ⟨c, _ | ⟨d, rest'⟩⟩
    · simp at h
    · simp at h
    · have hl : (a :: b :: rest).length = (c :: d :: rest').length := by simpa using congrArg List.length h
      unfold cleanSnaps feedClean
      rw [hl]
      split_ifs with hm
      · obtain ⟨i1, i2, i3, i4⟩ := feedClean_shows g k max (b :: rest)
          ((heap.modify b (fun f => { f with prev := none })).modify a (fun f => { f with next := none })) (d :: rest')
          (by simp only [List.map_cons, List.cons.injEq] at h ⊢; exact h.2)
        refine ⟨i1, i2, i3.trans ?_, i4.trans (List.sublist_cons_self _ _)⟩
        rw [map_modify_eq, map_modify_eq]
        · intro x; rfl
        · intro x; rfl
      · exact ⟨h, rfl, rfl, List.Sublist.refl _⟩

theorem Shows.lt {s : ObjSet} {fs : FrameSet} (h : Shows s fs) : ∀ i ∈ fs.frames, i < fs.heap.length := by
  intro i hi
  have h1 : (fs.heap.map Frame.snap)[i]? ∈ s.frames.map (fun f => some (f.map s.obj)) := by
    rw [← h.frames]; exact List.mem_map_of_mem hi
  obtain ⟨f, -, hf⟩ := List.mem_map.1 h1
  by_contra hc
  rw [List.getElem?_eq_none (by simpa using hc)] at hf
  cases hf

theorem linkNext_snap (heap : List Frame) (cur : Option ℕ) (id : ℕ) :
    (linkNext heap cur id).map Frame.snap = heap.map Frame.snap := by
  unfold linkNext
  rcases cur with _ | i
  · rfl
  · exact map_modify_eq _ _ _ _ (fun _ => rfl)

theorem Shows.create {s : ObjSet} {fs : FrameSet} (h : Shows s fs) (c : Ctx) (i : ℕ) (ps : ℤ) (pe : Option ℤ) :
    Shows (s.create i ps pe).1 (fs.feedCreate c (s.obj i) ps pe).1 ∧
      (fs.feedCreate c (s.obj i) ps pe).2 = (s.create i ps pe).2 := by
  have hu : upsert fs.heap fs.heap.length (s.obj i) c.marketOpen fs.indicators
      (Frame.fresh (s.obj i) ps pe fs.frames.getLast?) = .ok (Frame.fresh (s.obj i) ps pe fs.frames.getLast?) := by
    rw [h.inds]; rfl
  have hsnap : (linkNext fs.heap fs.frames.getLast? fs.heap.length ++ [Frame.fresh (s.obj i) ps pe fs.frames.getLast?]).map
      Frame.snap = fs.heap.map Frame.snap ++ [(Snap.fresh i ps pe).map s.obj] := by
    rw [List.map_append, linkNext_snap]; rfl
  have hids : (fs.frames ++ [fs.heap.length]).map
      (fun j => (fs.heap.map Frame.snap ++ [(Snap.fresh i ps pe).map s.obj])[j]?) =
      (s.frames ++ [Snap.fresh i ps pe]).map (fun f => some (f.map s.obj)) := by
    rw [List.map_append, List.map_append, ← h.frames]
    congr 1
    · apply List.map_congr_left
      intro j hj
      rw [List.getElem?_append_left (by simpa using h.lt j hj)]
    · simp
  obtain ⟨g1, g2, g3, g4⟩ := feedClean_shows _ _ s.maxFrames (fs.frames ++ [fs.heap.length])
    (linkNext fs.heap fs.frames.getLast? fs.heap.length ++ [Frame.fresh (s.obj i) ps pe fs.frames.getLast?]) _ hids
  have hnd : (fs.frames ++ [fs.heap.length]).Nodup := by
    rw [List.nodup_append]
    refine ⟨h.nodup, List.nodup_singleton _, ?_⟩
    intro a ha b hb hab
    have := h.lt a ha
    rw [List.mem_singleton.1 hb] at hab
    omega
  unfold FrameSet.feedCreate ObjSet.create
  simp only [hu, h.max]
  refine ⟨⟨h.unit, h.qty, rfl, h.inds, hnd.sublist g4, ?_⟩, g2⟩
  simp only
  rw [g3, hsnap]
  exact g1

theorem Shows.current {s : ObjSet} {fs : FrameSet} (h : Shows s fs) :
    (s.frames.getLast? = none ∧ fs.current = none) ∨
    ∃ i f g, s.frames.getLast? = some f ∧ fs.current = some (i, g) ∧ fs.frames.getLast? = some i ∧ fs.heap[i]? = some g ∧
      g.snap = f.map s.obj := by
  have hl : fs.frames.getLast?.map (fun i => (fs.heap.map Frame.snap)[i]?) =
      s.frames.getLast?.map (fun f => some (f.map s.obj)) := by
    rw [← List.getLast?_map, h.frames, List.getLast?_map]
  unfold FrameSet.current
  rcases h1 : fs.frames.getLast? with _ | i <;> rcases h2 : s.frames.getLast? with _ | f <;> rw [h1, h2] at hl
  · exact .inl ⟨rfl, rfl⟩
  · cases hl
  · cases hl
  · right
    have hl' : (fs.heap.map Frame.snap)[i]? = some (f.map s.obj) := Option.some.inj hl
    rw [List.getElem?_map, Option.map_eq_some_iff] at hl'
    obtain ⟨g, hg, hgs⟩ := hl'
    exact ⟨i, f, g, rfl, by simp [hg], rfl, hg, hgs⟩

theorem Shows.fill (c : Ctx) (ps : ℤ) : ∀ (fuel : ℕ) {s : ObjSet} {fs : FrameSet} (_ : Shows s fs),
    Shows (s.fill c ps fuel).1 (feedFill c ps fuel fs).1 ∧ (feedFill c ps fuel fs).2 = (s.fill c ps fuel).2 := by
  intro fuel
  induction fuel with
  | zero =>
    intro s fs h
    unfold ObjSet.fill feedFill
    rcases h.current with ⟨h1, h2⟩ | ⟨i, f, g, h1, h2, -, -, h3⟩
    · rw [h1, h2]; exact ⟨h, rfl⟩
    · rw [h1, h2]
      have hs : g.periodEnd = f.stop := congrArg Snap.stop h3
      simp only [hs]
      rcases f.stop with _ | pe
      · exact ⟨h, rfl⟩
      · simp only; split_ifs <;> exact ⟨h, rfl⟩
  | succ n ih =>
    intro s fs h
    unfold ObjSet.fill feedFill
    rcases h.current with ⟨h1, h2⟩ | ⟨i, f, g, h1, h2, -, -, h3⟩
    · rw [h1, h2]; exact ⟨h, rfl⟩
    · rw [h1, h2]
      have hs : g.periodEnd = f.stop := congrArg Snap.stop h3
      have hla : g.last = s.obj f.last := congrArg Snap.last h3
      simp only [hs, hla, h.unit, h.qty]
      rcases f.stop with _ | pe
      · exact ⟨h, rfl⟩
      · simp only
        split_ifs
        · obtain ⟨g1, g2⟩ := h.create c f.last pe (some (frameEnd c.zone s.unit s.qty pe))
          rcases hr : s.create f.last pe (some (frameEnd c.zone s.unit s.qty pe)) with ⟨r, o⟩
          rcases hr' : fs.feedCreate c (s.obj f.last) pe (some (frameEnd c.zone s.unit s.qty pe)) with ⟨r', o'⟩
          rw [hr, hr'] at g1 g2
          simp only at g1 g2
          subst g2
          rcases o' with _ | e
          · exact ih g1
          · exact ⟨g1, rfl⟩
        · exact ⟨h, rfl⟩

theorem Snap.track_map (obj : ℕ → Tick) (f : Snap ℕ) (i : ℕ) (g : Frame) (h : g.snap = f.map obj) :
    (g.track (obj i)).snap = (f.track obj i).map obj := by
  have hh : g.high = obj f.high := congrArg Snap.high h
  have hw : g.low = obj f.low := congrArg Snap.low h
  have h0 : g.periodStart = f.start := congrArg Snap.start h
  have h1 : g.periodEnd = f.stop := congrArg Snap.stop h
  have h2 : g.nbTicks = f.nb := congrArg Snap.nb h
  have h3 : g.first = obj f.first := congrArg Snap.first h
  unfold Frame.track Snap.track
  simp only [hh, hw]
  split_ifs <;> simp [Frame.snap, Snap.map, h0, h1, h2, h3]

theorem Shows.addLast {s : ObjSet} {fs : FrameSet} (h : Shows s fs) (c : Ctx) (i : ℕ) :
    Shows (s.addLast i).1 (fs.feedLast c (s.obj i)).1 ∧ (fs.feedLast c (s.obj i)).2 = (s.addLast i).2 := by
  unfold ObjSet.addLast FrameSet.feedLast
  rcases h.current with ⟨h1, h2⟩ | ⟨k, f, g, h1, h2, h4, h5, h3⟩
  · rw [h1, h2]; exact ⟨h, rfl⟩
  · rw [h1, h2]
    simp only [h.inds, feedInds]
    refine ⟨⟨h.unit, h.qty, h.max, rfl, h.nodup, ?_⟩, trivial⟩
    simp only
    have hk : k < fs.heap.length := h.lt k (List.mem_of_getLast? h4)
    have hfr : fs.frames = fs.frames.dropLast ++ [k] := by
      obtain ⟨l, hl⟩ := List.getLast?_eq_some_iff.1 h4
      rw [hl, List.dropLast_concat]
    have hnk : k ∉ fs.frames.dropLast := by
      have := h.nodup
      rw [hfr, List.nodup_append] at this
      intro hm
      exact this.2.2 k hm k (by simp) rfl
    rw [hfr, List.map_append, List.map_append]
    have hdrop : fs.frames.dropLast.map (fun i => (fs.heap.map Frame.snap)[i]?) =
        s.frames.dropLast.map (fun f => some (f.map s.obj)) := by
      rw [List.map_dropLast, h.frames, ← List.map_dropLast]
    congr 1
    · rw [← hdrop]
      apply List.map_congr_left
      intro j hj
      rw [List.getElem?_map, List.getElem?_map, List.getElem?_set_ne]
      intro hkj; exact hnk (hkj ▸ hj)
    · simp only [List.map_cons, List.map_nil, List.getElem?_map, List.getElem?_set_self hk, Option.map_some,
        Snap.track_map s.obj f i g h3]

theorem Shows.feed {s : ObjSet} {fs : FrameSet} (h : Shows s fs) (c : Ctx) (i : ℕ) :
    Shows (s.feed c i).1 (fs.feed c (s.obj i)).1 ∧ (fs.feed c (s.obj i)).2 = (s.feed c i).2 := by
  have ho : fs.overTick c (s.obj i) = s.overTick c i := by
    unfold ObjSet.overTick FrameSet.overTick
    rcases h.current with ⟨h1, h2⟩ | ⟨k, f, g, h1, h2, -, -, h3⟩
    · rw [h1, h2]
    · simp only [h1, h2, h.qty, show g.nbTicks = f.nb from congrArg Snap.nb h3]
      rfl
  have ht : fs.overTimed (s.obj i) = s.overTimed i := by
    unfold ObjSet.overTimed FrameSet.overTimed
    rcases h.current with ⟨h1, h2⟩ | ⟨k, f, g, h1, h2, -, -, h3⟩
    · rw [h1, h2]
    · simp only [h1, h2, show g.periodEnd = f.stop from congrArg Snap.stop h3]; rfl
  unfold ObjSet.feed FrameSet.feed
  rw [ho, ht, h.unit]
  split_ifs
  · exact h.create c i _ _
  · exact h.addLast c i
  · rcases s.overTimed i with e | b
    · exact ⟨h, rfl⟩
    · simp only
      split_ifs
      · unfold ObjSet.timed FrameSet.feedTimed
        rw [h.unit, h.qty]
        rcases frameStart s.unit s.qty (s.obj i).dt.wall with e | ps
        · exact ⟨h, rfl⟩
        · have hfu : fillFuel fs ps = s.fuel ps := by
            unfold fillFuel ObjSet.fuel
            rcases h.current with ⟨h1, h2⟩ | ⟨k, f, g, h1, h2, -, -, h3⟩
            · rw [h1, h2]
            · simp only [h1, h2, show g.periodEnd = f.stop from congrArg Snap.stop h3]; rfl
          simp only [hfu]
          obtain ⟨g1, g2⟩ := Shows.fill c ps (s.fuel ps) h
          have hob := (ObjSet.fill_fields c ps (s.fuel ps) s).2.2.2
          rcases hr : s.fill c ps (s.fuel ps) with ⟨r, o⟩
          rcases hr' : feedFill c ps (s.fuel ps) fs with ⟨r', o'⟩
          rw [hr, hr'] at g1 g2
          rw [hr] at hob
          simp only at g1 g2 hob
          subst g2
          rcases o' with _ | e
          · rw [← hob]; exact g1.create c i ps _
          · exact ⟨g1, rfl⟩
      · exact h.addLast c i

theorem Shows.new (o : ℕ → Tick) (u : Unit') (q m : ℤ) : Shows ⟨o, u, q, m, []⟩ ⟨u, q, m, [], [], []⟩ :=
  ⟨rfl, rfl, rfl, rfl, List.nodup_nil, rfl⟩

end
end Estrade
