import Verif.Lemmas.Lived
import Verif.Props.Frames
import Verif.Props.Epics

/-!
# Frame sets after exceptions

`Lived u q m fs h` (Lemmas/Lived.lean): the frame set received the ticks `h`; whenever one raised, the program caught the exception and
went on.  `fs.feed c t` is the state after a tick together with the exception, if any.
-/

set_option autoImplicit false
set_option linter.unusedSectionVars false
set_option linter.style.haveILetI false

namespace Estrade

variable [Arith]

/-! ## C63 -/

/-- C63: whatever ticks raised, the memory holds the latest `min n m` of the `n` frames created, the links are those of that list,
and each frame summarises some of the ticks delivered, in their order. -/
theorem C63_structure_survives (u : Unit') (q m : ℤ) (hm : 1 ≤ m) (fs : FrameSet) (h : List HEv)
    (hL : Lived u q m fs h) :
    fs.view = fs.heap.drop (fs.heap.length - m.toNat) ∧ fs.view.length = min fs.heap.length m.toNat ∧
    ∀ (i : ℕ) (f : Frame), fs.view[i]? = some f →
      f.prev = (if i = 0 then none else fs.frames[i - 1]?) ∧ f.next = fs.frames[i + 1]? ∧
      (f.closed = true ↔ i + 1 < fs.view.length) ∧
      ∃ ts : List Tick, ts.Sublist (h.map HEv.tick) ∧ f.nbTicks = ts.length ∧
        Spec.Summary ts f.first f.high f.low f.last := by
  obtain ⟨A, H⟩ := lived_inv hm hL
  have hR := H.rep
  have hM := H.max
  refine ⟨by rw [hR.view, hM, hR.len], by rw [hR.view_length, hM, hR.len], ?_⟩
  intro i f hf
  have hlt := (List.getElem?_eq_some_iff.mp hf).1
  rw [hR.view_length] at hlt
  rw [hR.view_get] at hf
  have hp := hR.prev _ f hf
  have hn := hR.next _ f hf
  have hfr := hR.frames
  have hM1 : 1 ≤ fs.maxFrames.toNat := by omega
  have hi := (List.getElem?_eq_some_iff.mp hf).1
  rw [hR.len] at hi
  have hco := hR.core _ _ f (List.getElem?_eq_getElem hi) hf
  rw [hR.view_length]
  refine ⟨?_, ?_, ?_, _, H.ticks _ (List.getElem_mem hi), by rw [hco.count]; simp, hco.sum⟩
  · rw [hp, hfr]
    split_ifs with h1 h2 h2
    · omega
    · rw [List.getElem?_range' (by omega)]; congr 1; omega
    · rfl
    · omega
  · rw [hn, hfr]
    split_ifs with h1
    · rw [List.getElem?_range' (by omega)]; congr 1; omega
    · rw [List.getElem?_eq_none (by simp; omega)]
  · unfold Frame.closed
    rw [hn]
    split_ifs with h1
    · simp; omega
    · simp; omega

/-- C63: the periods of a timed set stay aligned and consecutive, whatever ticks raised and in whatever order ticks came (when no
aligned instant of the history is skipped by a clock change). -/
theorem C63_contiguous (u : Unit') (q m : ℤ) (ha : Spec.Accepted u q) (hm : 1 ≤ m) (fs : FrameSet) (h : List HEv)
    (hL : Lived u q m fs h) (hz : Spec.NoneSkipped u q h) :
    (∀ f ∈ fs.view, Spec.Aligned u q f.periodStart ∧ ∃ e, f.periodEnd = some e ∧ Spec.Aligned u q e ∧
      f.periodStart < e ∧ ∀ a, Spec.Aligned u q a → f.periodStart < a → e ≤ a) ∧
    (∀ (i : ℕ) (f g : Frame), fs.view[i]? = some f → fs.view[i + 1]? = some g → f.periodEnd = some g.periodStart) := by
  have hT := accepted_tiles ha
  obtain ⟨A, H⟩ := lived_inv hm hL
  have hR := H.rep
  obtain ⟨k0, -, hk⟩ := H.chain hT (keeps_of_noneSkipped hT hz)
  have key : ∀ (i : ℕ) (f : Frame), fs.view[i]? = some f →
      f.periodStart = grid u q (k0 + ((A.length - fs.maxFrames.toNat + i : ℕ) : ℤ)) ∧
      f.periodEnd = some (grid u q (k0 + ((A.length - fs.maxFrames.toNat + i : ℕ) : ℤ) + 1)) := by
    intro i f hf
    rw [hR.view_get] at hf
    have hi := (List.getElem?_eq_some_iff.mp hf).1
    rw [hR.len] at hi
    have hco := hR.core _ _ f (List.getElem?_eq_getElem hi) hf
    obtain ⟨h1, h2⟩ := hk _ _ (List.getElem?_eq_getElem hi)
    rw [hco.start, hco.stop]
    exact ⟨h1, h2⟩
  constructor
  · intro f hf
    obtain ⟨i, hi⟩ := List.mem_iff_getElem?.mp hf
    obtain ⟨h1, h2⟩ := key i f hi
    rw [h1, h2]
    exact ⟨(aligned_iff_grid hT _).mpr ⟨_, rfl⟩, _, rfl, grid_next hT _⟩
  · intro i f g hf hg
    rw [(key i f hf).2, (key _ g hg).1]
    congr 2
    push_cast
    ring

/-- Spec: the tick falls in the current frame `f`. -/
def Spec.Belongs (fs : FrameSet) (c : Ctx) (t : Tick) (f : Frame) : Prop :=
  if fs.unit = .tick then (f.nbTicks : ℤ) < fs.qty ∧ ∃ mo d, c.epic = some (mo, d) ∧ ordOf t.dt.wall ≤ d
  else ∃ pe, f.periodEnd = some pe ∧ t.dt.wall < pe

theorem feed_belongs {fs : FrameSet} {c : Ctx} {t : Tick} {i : ℕ} {f : Frame} (hc : fs.current = some (i, f))
    (hb : Spec.Belongs fs c t f) : fs.feed c t = fs.feedLast c t := by
  unfold Spec.Belongs at hb
  unfold FrameSet.feed
  split_ifs at hb with h1
  · obtain ⟨h2, mo, d, h3, h4⟩ := hb
    rw [if_pos h1, if_neg]
    unfold FrameSet.overTick
    rw [hc]
    simp only [h3, Bool.or_eq_true, decide_eq_true_eq]
    omega
  · obtain ⟨pe, h2, h3⟩ := hb
    rw [if_neg h1]
    unfold FrameSet.overTimed
    rw [hc]
    simp only [h2]
    rw [if_neg]
    simp only [decide_eq_true_eq]
    omega

theorem feed_not_belongs {fs : FrameSet} {c : Ctx} {t : Tick}
    (hb : ∀ i f, fs.current = some (i, f) → ¬ Spec.Belongs fs c t f) :
    fs.feed c t = if fs.unit = .tick then fs.feedCreate c t t.dt.wall none
      else match fs.overTimed t with
        | .error e => (fs, some e)
        | .ok _ => fs.feedTimed c t := by
  unfold FrameSet.feed
  split_ifs with h1 h2
  · rfl
  · exfalso
    unfold FrameSet.overTick at h2
    rcases hc : fs.current with _ | ⟨i, f⟩
    · rw [hc] at h2; exact h2 rfl
    · rw [hc] at h2
      apply hb i f hc
      unfold Spec.Belongs
      rw [if_pos h1]
      simp only [Bool.or_eq_true, decide_eq_true_eq, not_or, not_le] at h2
      refine ⟨h2.1, ?_⟩
      rcases he : c.epic with _ | ⟨mo, d⟩
      · rw [he] at h2; simp at h2
      · rw [he] at h2
        refine ⟨mo, d, rfl, ?_⟩
        have := h2.2
        simp only [decide_eq_true_eq, not_lt] at this
        exact this
  · rcases ho : fs.overTimed t with e | over
    · rfl
    · simp only
      rw [if_pos]
      by_contra hov
      unfold FrameSet.overTimed at ho
      rcases hc : fs.current with _ | ⟨i, f⟩
      · rw [hc] at ho
        simp only [Except.ok.injEq] at ho
        exact hov ho.symm
      · rw [hc] at ho
        simp only at ho
        rcases hp : f.periodEnd with _ | pe
        · rw [hp] at ho; cases ho
        · rw [hp] at ho
          simp only [Except.ok.injEq] at ho
          apply hb i f hc
          unfold Spec.Belongs
          rw [if_neg h1]
          refine ⟨pe, hp, ?_⟩
          rw [← ho, decide_eq_true_eq] at hov
          omega

/-- C63: a tick inside the current frame is recorded in it even when an indicator raises: one more tick, the new
extremes, the same period and links; no other frame changes.  For any memory limit. -/
theorem C63_recorded_in_current (fs : FrameSet) (c : Ctx) (t : Tick) (i : ℕ) (f : Frame)
    (hc : fs.current = some (i, f)) (hb : Spec.Belongs fs c t f) :
    ∃ f', (fs.feed c t).1.current = some (i, f') ∧ (fs.feed c t).1.frames = fs.frames ∧
      (fs.feed c t).1.heap.length = fs.heap.length ∧
      (∀ j, j ≠ i → (fs.feed c t).1.heap[j]? = fs.heap[j]?) ∧ f'.nbTicks = f.nbTicks + 1 ∧
      f'.periodStart = f.periodStart ∧ f'.periodEnd = f.periodEnd ∧ f'.prev = f.prev ∧ f'.next = f.next ∧
      ∀ ts, Spec.Summary ts f.first f.high f.low f.last → Spec.Summary (ts ++ [t]) f'.first f'.high f'.low f'.last := by
  rw [feed_belongs hc hb]
  unfold FrameSet.feedLast
  rw [hc]
  simp only
  have h1 := feedInds_inds fs.heap i t c.marketOpen fs.indicators (f.track t)
  obtain ⟨g, hg⟩ : ∃ g, (feedInds fs.heap i t c.marketOpen fs.indicators (f.track t)).1 = g := ⟨_, rfl⟩
  rw [hg] at h1 ⊢
  have hlt : i < fs.heap.length ∧ fs.frames.getLast? = some i := by
    unfold FrameSet.current at hc
    split at hc
    · cases hc
    · rename_i k hk
      obtain ⟨x, h2, h3⟩ := Option.map_eq_some_iff.mp hc
      injection h3 with h3 h4
      subst h3
      exact ⟨(List.getElem?_eq_some_iff.mp h2).1, hk⟩
  refine ⟨g, ?_, trivial, by simp, fun j hj => by rw [List.getElem?_set_ne (Ne.symm hj)], ?_⟩
  · unfold FrameSet.current
    simp only [hlt.2]
    rw [List.getElem?_set_self hlt.1]
    rfl
  · rw [h1, track_eq]
    exact ⟨rfl, rfl, rfl, rfl, rfl, fun ts hs => hs.append t⟩

/-- C63: a tick that should start a frame and raises is in no frame: a TICK set is left as it was; in a timed set the frames
there were stay, links apart, and the frames that were added repeat the last tick of the frame that was current. -/
theorem C63_lost_when_starting (u : Unit') (q m : ℤ) (hm : 1 ≤ m) (fs fs' : FrameSet) (h : List HEv) (hL : Lived u q m fs h)
    (c : Ctx) (t : Tick) (e : PyErr) (hb : ∀ i f, fs.current = some (i, f) → ¬ Spec.Belongs fs c t f)
    (hfe : fs.feed c t = (fs', some e)) :
    (u = .tick → fs' = fs) ∧ fs.heap.length ≤ fs'.heap.length ∧
    (∀ j, j < fs.heap.length → (fs'.heap[j]?).map Frame.bare = (fs.heap[j]?).map Frame.bare) ∧
    ∀ j g, fs.heap.length ≤ j → fs'.heap[j]? = some g → ∃ i f, fs.current = some (i, f) ∧ g.nbTicks = 1 ∧
      g.first = f.last ∧ g.high = f.last ∧ g.low = f.last ∧ g.last = f.last := by
  obtain ⟨A, H⟩ := lived_inv hm hL
  have hmf : 1 ≤ fs.maxFrames := by rw [H.max]; exact hm
  have same : fs' = fs → ((u = .tick → fs' = fs) ∧ fs.heap.length ≤ fs'.heap.length ∧
    (∀ j, j < fs.heap.length → (fs'.heap[j]?).map Frame.bare = (fs.heap[j]?).map Frame.bare) ∧
    ∀ j g, fs.heap.length ≤ j → fs'.heap[j]? = some g → ∃ i f, fs.current = some (i, f) ∧ g.nbTicks = 1 ∧
      g.first = f.last ∧ g.high = f.last ∧ g.low = f.last ∧ g.last = f.last) := by
    rintro rfl
    refine ⟨fun _ => rfl, le_rfl, fun _ _ => rfl, ?_⟩
    intro j g hj hg
    have := (List.getElem?_eq_some_iff.mp hg).1
    omega
  have H1 := H.longer ⟨c, t, fs.indicators⟩
  have main : ∀ ps F, LInv u q m (feedFill c ps (fillFuel fs ps) fs).1 (h ++ [⟨c, t, fs.indicators⟩]) (A ++ F) →
      (∀ x ∈ F, ∃ B a e, A = B ++ [a] ∧ a.evs.getLast? = some e ∧ x.evs.map Ev.tick = [e.tick]) →
      (∀ i, i < fs.heap.length → ((feedFill c ps (fillFuel fs ps) fs).1.heap[i]?).map Frame.bare =
        (fs.heap[i]?).map Frame.bare) → u ≠ .tick → fs' = (feedFill c ps (fillFuel fs ps) fs).1 →
      ((u = .tick → fs' = fs) ∧ fs.heap.length ≤ fs'.heap.length ∧
    (∀ j, j < fs.heap.length → (fs'.heap[j]?).map Frame.bare = (fs.heap[j]?).map Frame.bare) ∧
    ∀ j g, fs.heap.length ≤ j → fs'.heap[j]? = some g → ∃ i f, fs.current = some (i, f) ∧ g.nbTicks = 1 ∧
      g.first = f.last ∧ g.high = f.last ∧ g.low = f.last ∧ g.last = f.last) := by
    intro ps F g1 g3 g7 hu he
    rw [← he] at g1 g7
    refine ⟨fun h0 => absurd h0 hu, ?_, g7, ?_⟩
    · rw [g1.rep.len, H.rep.len, List.length_append]; omega
    · intro j g hj hg
      have hlt := (List.getElem?_eq_some_iff.mp hg).1
      rw [g1.rep.len] at hlt
      rw [H.rep.len] at hj
      have hx : (A ++ F)[j]? = F[j - A.length]? := List.getElem?_append_right hj
      have hj2 : j - A.length < F.length := by rw [List.length_append] at hlt; omega
      rw [List.getElem?_eq_getElem hj2] at hx
      have hco := g1.rep.core _ _ g hx hg
      obtain ⟨B, a, ev, h1, h2, h3⟩ := g3 _ (List.getElem_mem hj2)
      have hR := H.rep
      rw [h1] at hR
      obtain ⟨f, hc, -, hcf⟩ := hR.current hmf
      have hl := hcf.sum.last
      rw [List.getLast?_map, h2] at hl
      have hl' : ev.tick = f.last := by simpa using hl
      have hs := hco.sum
      have hn := hco.count
      rw [h3, hl'] at hs
      have hn' : (F[j - A.length]).evs.length = 1 := by
        have := congrArg List.length h3
        simpa using this
      refine ⟨_, f, hc, by rw [hn, hn'], ?_, List.mem_singleton.mp hs.high_mem, List.mem_singleton.mp hs.low_mem, ?_⟩
      · exact (Option.some.inj hs.first).symm
      · exact (Option.some.inj hs.last).symm
  rw [feed_not_belongs hb] at hfe
  split_ifs at hfe with h1
  · rcases feedCreate_cases hmf c t t.dt.wall none with ⟨e', hr⟩ | ⟨fs1, -, hr⟩
    · rw [hr] at hfe
      injection hfe with h2 _
      exact same h2.symm
    · rw [hr] at hfe
      injection hfe with _ h2
      cases h2
  · have hu : u ≠ .tick := by rw [← H.unit]; exact h1
    rcases ho : fs.overTimed t with e' | b
    · rw [ho] at hfe
      injection hfe with h2 _
      exact same h2.symm
    · rw [ho] at hfe
      simp only at hfe
      unfold FrameSet.feedTimed at hfe
      rcases hps : frameStart fs.unit fs.qty t.dt.wall with e' | ps
      · rw [hps] at hfe
        injection hfe with h2 _
        exact same h2.symm
      · rw [hps] at hfe
        simp only at hfe
        obtain ⟨F, g1, g2, g3, -, -, -, g7⟩ := H1.fill hm c ps (fillFuel fs ps)
          ⟨⟨c, t, fs.indicators⟩, by simp, rfl, fun hT => by
            rw [H.unit, H.qty] at hps
            exact (frameStart_ok hT hps).le⟩
        rcases hr : feedFill c ps (fillFuel fs ps) fs with ⟨fs1, _ | e1⟩
        · rw [hr] at hfe
          simp only at hfe
          have hmf1 : 1 ≤ fs1.maxFrames := by
            have := g1.max
            rw [hr] at this
            rw [this]; exact hm
          rcases feedCreate_cases hmf1 c t ps (some (frameEnd c.zone fs.unit fs.qty ps)) with ⟨e', hr'⟩ | ⟨fs2, -, hr'⟩
          · rw [hr'] at hfe
            injection hfe with h2 _
            exact main ps F g1 g3 g7 hu (by rw [hr, h2])
          · rw [hr'] at hfe
            injection hfe with _ h2
            cases h2
        · rw [hr] at hfe
          injection hfe with h2 _
          exact main ps F g1 g3 g7 hu (by rw [hr, h2])

/-! ## C64: memory limits below one frame -/

/-- The frame sets with a memory limit below one frame: nothing, or the newest frame alone, without links. -/
def Tiny (fs : FrameSet) : Prop :=
  fs.heap = [] ∧ fs.frames = [] ∨
    ∃ f, fs.heap.getLast? = some f ∧ fs.frames = [fs.heap.length - 1] ∧ f.prev = none ∧ f.next = none

theorem linkNext_bare (heap : List Frame) (cur : Option ℕ) (id : ℕ) (i : ℕ) :
    ((linkNext heap cur id)[i]?).map Frame.bare = (heap[i]?).map Frame.bare := by
  unfold linkNext
  rcases cur with _ | j
  · rfl
  · simp only
    rw [List.getElem?_modify]
    rcases heap[i]? with _ | f
    · rfl
    · simp only [Option.map_eq_map, Option.map_some, Option.some.injEq]
      split_ifs <;> rfl

theorem linkNext_length (heap : List Frame) (cur : Option ℕ) (id : ℕ) : (linkNext heap cur id).length = heap.length := by
  unfold linkNext
  rcases cur with _ | j
  · rfl
  · simp

/-- Starting a frame below the limit: raises; nothing changes when an indicator raised, otherwise the frame is there. -/
theorem feedCreate_below {fs : FrameSet} (hm : fs.maxFrames < 1) (hT : Tiny fs) (c : Ctx) (t : Tick) (ps : ℤ) (pe : Option ℤ) :
    (∃ e, fs.feedCreate c t ps pe = (fs, some e) ∧
      upsert fs.heap fs.heap.length t c.marketOpen fs.indicators (Frame.fresh t ps pe fs.frames.getLast?) = .error e) ∨
    (∃ heap' f, fs.feedCreate c t ps pe = ({ fs with heap := heap', frames := [fs.heap.length] }, some .index) ∧
      heap'.length = fs.heap.length + 1 ∧ (∀ i, i < fs.heap.length → (heap'[i]?).map Frame.bare = (fs.heap[i]?).map Frame.bare) ∧
      heap'[fs.heap.length]? = some f ∧ f.periodStart = ps ∧ f.periodEnd = pe ∧ f.nbTicks = 1 ∧ f.first = t ∧ f.high = t ∧ f.low = t ∧
      f.last = t ∧ f.prev = none ∧ f.next = none) := by
  unfold FrameSet.feedCreate
  rcases hu : upsert fs.heap fs.heap.length t c.marketOpen fs.indicators (Frame.fresh t ps pe fs.frames.getLast?) with e | f
  · left; simp only [hu]; exact ⟨e, rfl, rfl⟩
  · right
    have hf := upsert_inds hu
    have fields : f.periodStart = ps ∧ f.periodEnd = pe ∧ f.nbTicks = 1 ∧ f.first = t ∧ f.high = t ∧ f.low = t ∧
        f.last = t ∧ f.prev = fs.frames.getLast? ∧ f.next = none := by
      rw [hf]; exact ⟨rfl, rfl, rfl, rfl, rfl, rfl, rfl, rfl, rfl⟩
    simp only [hu]
    rcases hT with ⟨h1, h2⟩ | ⟨g, h1, h2, h3, h4⟩
    · rw [h2] at fields
      refine ⟨[f], f, ?_, by rw [h1]; rfl, by rw [h1]; simp, by rw [h1]; rfl, fields.1, fields.2.1, fields.2.2.1,
        fields.2.2.2.1, fields.2.2.2.2.1, fields.2.2.2.2.2.1, fields.2.2.2.2.2.2.1, fields.2.2.2.2.2.2.2.1, fields.2.2.2.2.2.2.2.2⟩
      rw [h1, h2]
      simp only [List.nil_append, linkNext, feedClean, List.getLast?_nil, List.length_nil]
      rw [if_pos hm]
    · have hne : fs.heap ≠ [] := by rintro h0; rw [h0] at h1; cases h1
      have hpos : 0 < fs.heap.length := List.length_pos_of_ne_nil hne
      obtain ⟨n, hn⟩ : ∃ n, fs.heap.length = n + 1 := ⟨fs.heap.length - 1, by omega⟩
      have hlk : (linkNext fs.heap fs.frames.getLast? fs.heap.length ++ [f]).length = n + 2 := by
        rw [List.length_append, linkNext_length, hn]; rfl
      have hcl : feedClean fs.maxFrames (linkNext fs.heap fs.frames.getLast? fs.heap.length ++ [f]) (fs.frames ++ [fs.heap.length]) =
          (((((linkNext fs.heap fs.frames.getLast? fs.heap.length ++ [f]).modify (n + 1) (fun f => { f with prev := none })).modify n
            (fun f => { f with next := none })), [n + 1]), some .index) := by
        rw [h2, hn, Nat.add_sub_cancel]
        simp only [List.cons_append, List.nil_append, feedClean]
        rw [if_pos (by simp; omega), if_pos hm]
      rw [hcl]
      refine ⟨_, { f with prev := none }, by rw [hn], by rw [List.length_modify, List.length_modify, List.length_append, linkNext_length]; rfl, ?_, ?_, ?_⟩
      · intro i hi
        rw [List.getElem?_modify, List.getElem?_modify]
        rw [List.getElem?_append_left (by rw [linkNext_length]; exact hi),
          ← linkNext_bare fs.heap fs.frames.getLast? (n + 1) i]
        rcases (linkNext fs.heap fs.frames.getLast? (n + 1))[i]? with _ | x
        · rfl
        · simp only [Option.map_eq_map, Option.map_some, Option.some.injEq]
          split_ifs <;> rfl
      · rw [List.getElem?_modify, List.getElem?_modify, List.getElem?_append_right (by rw [linkNext_length]),
          linkNext_length, Nat.sub_self, hn]
        simp
      · exact ⟨fields.1, fields.2.1, fields.2.2.1, fields.2.2.2.1, fields.2.2.2.2.1, fields.2.2.2.2.2.1,
          fields.2.2.2.2.2.2.1, rfl, fields.2.2.2.2.2.2.2.2⟩

theorem Tiny.current {fs : FrameSet} (hT : Tiny fs) : fs.current = none ∧ fs.heap = [] ∧ fs.frames = [] ∨
    ∃ n f, fs.heap.length = n + 1 ∧ fs.frames = [n] ∧ fs.heap[n]? = some f ∧ fs.current = some (n, f) ∧
      f.prev = none ∧ f.next = none := by
  rcases hT with ⟨h1, h2⟩ | ⟨f, h1, h2, h3, h4⟩
  · left
    refine ⟨?_, h1, h2⟩
    unfold FrameSet.current
    rw [h2]; rfl
  · right
    have hne : fs.heap ≠ [] := by rintro h0; rw [h0] at h1; cases h1
    have hpos : 0 < fs.heap.length := List.length_pos_of_ne_nil hne
    have hg : fs.heap[fs.heap.length - 1]? = some f := by rw [← List.getLast?_eq_getElem?]; exact h1
    refine ⟨fs.heap.length - 1, f, by omega, h2, hg, ?_, h3, h4⟩
    unfold FrameSet.current
    rw [h2]
    simp only [List.getLast?_singleton, hg]
    rfl

/-- What a frame set with a memory limit below one frame is after any life. -/
structure TInv (u : Unit') (q m : ℤ) (fs : FrameSet) (h : List HEv) : Prop where
  unit : fs.unit = u
  qty : fs.qty = q
  max : fs.maxFrames = m
  tiny : Tiny fs
  ticks : ∀ i f, fs.current = some (i, f) → ∃ ts : List Tick, ts.Sublist (h.map HEv.tick) ∧ f.nbTicks = ts.length ∧
    Spec.Summary ts f.first f.high f.low f.last
  period : Tiles u q → GridKept u q h → ∀ i f, fs.current = some (i, f) →
    ∃ k, (∃ x ∈ h, gidx u q x.wall ≤ k) ∧ f.periodStart = grid u q k ∧ f.periodEnd = some (grid u q (k + 1))

theorem TInv.longer {u : Unit'} {q m : ℤ} {fs : FrameSet} {h : List HEv} (H : TInv u q m fs h) (x : HEv) :
    TInv u q m fs (h ++ [x]) := by
  refine ⟨H.unit, H.qty, H.max, H.tiny, ?_, fun hT hz i f hc => by
    obtain ⟨k, ⟨y, hy, h1⟩, h2⟩ := H.period hT hz.mono i f hc
    exact ⟨k, ⟨y, by simp [hy], h1⟩, h2⟩⟩
  intro i f hc
  obtain ⟨ts, h1, h2⟩ := H.ticks i f hc
  exact ⟨ts, h1.trans (by rw [List.map_append]; exact List.sublist_append_left _ _), h2⟩

theorem TInv.create {u : Unit'} {q m : ℤ} (hm : m < 1) {fs : FrameSet} {h : List HEv} (H : TInv u q m fs h) (c : Ctx) (t : Tick)
    (ps : ℤ) (pe : Option ℤ) (ht : t ∈ h.map HEv.tick)
    (hp : Tiles u q → GridKept u q h → ∃ k, (∃ x ∈ h, gidx u q x.wall ≤ k) ∧ ps = grid u q k ∧ pe = some (grid u q (k + 1))) :
    TInv u q m (fs.feedCreate c t ps pe).1 h ∧ ∃ e, (fs.feedCreate c t ps pe).2 = some e := by
  rcases feedCreate_below (by rw [H.max]; exact hm) H.tiny c t ps pe with ⟨e, hr, -⟩ | ⟨heap', f, hr, h1, -, h2, h3⟩
  · rw [hr]; exact ⟨H, e, rfl⟩
  · rw [hr]
    obtain ⟨a1, a2, a3, a4, a5, a6, a7, a8, a9⟩ := h3
    have hcur : ∀ i g, FrameSet.current { fs with heap := heap', frames := [fs.heap.length] } = some (i, g) → g = f := by
      intro i g hg
      unfold FrameSet.current at hg
      simp only [List.getLast?_singleton, h2] at hg
      injection hg with hg
      injection hg with _ hg
      exact hg.symm
    refine ⟨⟨H.unit, H.qty, H.max, Or.inr ⟨f, ?_, ?_, a8, a9⟩, ?_, ?_⟩, _, rfl⟩
    · rw [List.getLast?_eq_getElem?]
      simp only [h1, Nat.add_sub_cancel, h2]
    · simp only [h1, Nat.add_sub_cancel]
    · intro i g hg
      rw [hcur i g hg]
      refine ⟨[t], by simpa using ht, a3, ?_⟩
      rw [a4, a5, a6, a7]
      exact Spec.Summary.one t
    · intro hT hz i g hg
      rw [hcur i g hg, a1, a2]
      exact hp hT hz

theorem TInv.feed {u : Unit'} {q m : ℤ} (hm : m < 1) {fs : FrameSet} {h : List HEv} (H : TInv u q m fs h) (c : Ctx) (t : Tick) :
    TInv u q m (fs.feed c t).1 (h ++ [⟨c, t, fs.indicators⟩]) ∧
    ((∀ i f, fs.current = some (i, f) → ¬ Spec.Belongs fs c t f) → ∃ e, (fs.feed c t).2 = some e) := by
  have H1 := H.longer ⟨c, t, fs.indicators⟩
  have hin : (⟨c, t, fs.indicators⟩ : HEv) ∈ h ++ [⟨c, t, fs.indicators⟩] := by simp
  by_cases hb : ∀ i f, fs.current = some (i, f) → ¬ Spec.Belongs fs c t f
  · suffices TInv u q m (fs.feed c t).1 (h ++ [⟨c, t, fs.indicators⟩]) ∧ ∃ e, (fs.feed c t).2 = some e from
      ⟨this.1, fun _ => this.2⟩
    rw [feed_not_belongs hb]
    split_ifs with h1
    · exact H1.create hm c t _ _ (List.mem_map_of_mem hin) (fun hT => absurd (H.unit ▸ h1) hT.ne_tick)
    · rcases fs.overTimed t with e | b
      · exact ⟨H1, e, rfl⟩
      · simp only
        unfold FrameSet.feedTimed
        rcases hps : frameStart fs.unit fs.qty t.dt.wall with e | ps
        · exact ⟨H1, e, rfl⟩
        · simp only
          have hfin := H1.create hm c t ps (some (frameEnd c.zone fs.unit fs.qty ps)) (List.mem_map_of_mem hin) (by
            intro hT hz
            rw [H.unit, H.qty] at hps ⊢
            have hsg := frameStart_ok hT hps
            have hk := hz _ hin _ hin (gidx u q t.dt.wall + 1) (lt_add_one (gidx u q t.dt.wall)) le_rfl
            exact ⟨_, ⟨_, hin, le_rfl⟩, hsg, by rw [hsg]; exact congrArg some (frameEnd_grid_kept hT hk)⟩)
          rcases hcur : fs.current with _ | ⟨i, f⟩
          · have : feedFill c ps (fillFuel fs ps) fs = (fs, none) := by unfold feedFill; rw [hcur]
            rw [this]
            exact hfin
          · rcases hpe : f.periodEnd with _ | pe
            · have : feedFill c ps (fillFuel fs ps) fs = (fs, some .attr) := by unfold feedFill; rw [hcur]; simp only [hpe]
              rw [this]
              exact ⟨H1, _, rfl⟩
            · by_cases hlt : pe < ps
              · have hff := H1.create hm c f.last pe (some (frameEnd c.zone fs.unit fs.qty pe)) (by
                    obtain ⟨ts, g1, -, g3⟩ := H1.ticks i f hcur
                    exact g1.subset g3.last_mem) (by
                    intro hT hz
                    obtain ⟨k, ⟨y, hy, hyk⟩, -, hk⟩ := H1.period hT hz i f hcur
                    rw [hpe] at hk
                    injection hk with hk
                    rw [H.unit, H.qty] at hps ⊢
                    have hsg := frameStart_ok hT hps
                    rw [hk, hsg] at hlt
                    have hlt := (grid_strictMono hT).lt_iff_lt.mp hlt
                    rw [hk, frameEnd_grid_kept hT (hz _ hin y hy _ (by omega) (by
                      show k + 1 + 1 ≤ gidx u q t.dt.wall + 1
                      omega))]
                    exact ⟨_, ⟨y, hy, by omega⟩, rfl, rfl⟩)
                obtain ⟨g1, e, g2⟩ := hff
                obtain ⟨n, hn⟩ : ∃ n, fillFuel fs ps = n + 1 := by
                  unfold fillFuel
                  rw [hcur]
                  simp only [hpe]
                  exact ⟨(ps - pe).toNat - 1, by omega⟩
                have : feedFill c ps (fillFuel fs ps) fs = ((fs.feedCreate c f.last pe (some (frameEnd c.zone fs.unit fs.qty pe))).1, some e) := by
                  rw [hn]
                  unfold feedFill
                  rw [hcur]
                  simp only [hpe]
                  rw [if_pos hlt]
                  rcases hr : fs.feedCreate c f.last pe (some (frameEnd c.zone fs.unit fs.qty pe)) with ⟨fs1, _ | e1⟩
                  · rw [hr] at g2; cases g2
                  · rw [hr] at g2
                    injection g2 with g2
                    rw [← g2]
                rw [this]
                exact ⟨g1, _, rfl⟩
              · have : feedFill c ps (fillFuel fs ps) fs = (fs, none) := by
                  unfold feedFill; rw [hcur]; simp only [hpe]; rw [if_neg hlt]
                rw [this]
                exact hfin
  · refine ⟨?_, fun h0 => absurd h0 hb⟩
    push Not at hb
    obtain ⟨i, f, hc, hbel⟩ := hb
    obtain ⟨f', g1, g2, g3, g4, g5, g6, g7, g8, g9, g10⟩ := C63_recorded_in_current fs c t i f hc hbel
    have hfields : (fs.feed c t).1.unit = fs.unit ∧ (fs.feed c t).1.qty = fs.qty ∧ (fs.feed c t).1.maxFrames = fs.maxFrames := by
      rw [feed_belongs hc hbel]
      unfold FrameSet.feedLast
      rw [hc]
      exact ⟨rfl, rfl, rfl⟩
    rcases H.tiny.current with ⟨h1, -⟩ | ⟨n, x, h1, h2, h3, h4, h5, h6⟩
    · rw [hc] at h1; cases h1
    · rw [hc] at h4
      injection h4 with h4
      injection h4 with h4 h4'
      subst h4 h4'
      refine ⟨by rw [hfields.1]; exact H.unit, by rw [hfields.2.1]; exact H.qty, by rw [hfields.2.2]; exact H.max,
        Or.inr ⟨f', ?_, by rw [g2, g3, h2, h1]; rfl, by rw [g8]; exact h5, by rw [g9]; exact h6⟩, ?_, ?_⟩
      · unfold FrameSet.current at g1
        rw [g2, h2] at g1
        simp only [List.getLast?_singleton] at g1
        obtain ⟨y, k1, k2⟩ := Option.map_eq_some_iff.mp g1
        injection k2 with _ k2
        subst k2
        rw [List.getLast?_eq_getElem?, g3, h1]
        exact k1
      · intro j g hg
        rw [g1] at hg
        injection hg with hg
        injection hg with _ hg
        subst hg
        obtain ⟨ts, k1, k2, k3⟩ := H.ticks i f hc
        refine ⟨ts ++ [t], ?_, by rw [g5, k2]; simp, g10 ts k3⟩
        rw [List.map_append]
        exact k1.append (List.Sublist.refl _)
      · intro hT hz j g hg
        rw [g1] at hg
        injection hg with hg
        injection hg with _ hg
        subst hg
        rw [g6, g7]
        exact H1.period hT hz i f hc

theorem lived_below {u : Unit'} {q m : ℤ} (hm : m < 1) {fs : FrameSet} {h : List HEv} (hL : Lived u q m fs h) : TInv u q m fs h := by
  induction hL with
  | new => exact ⟨rfl, rfl, rfl, Or.inl ⟨rfl, rfl⟩, fun _ _ hc => (by cases hc), fun _ _ _ _ hc => (by cases hc)⟩
  | ind i _ ih =>
    rw [addIndicator_fields]
    exact ⟨ih.unit, ih.qty, ih.max, ih.tiny, ih.ticks, ih.period⟩
  | tick c t _ ih => exact (ih.feed hm c t).1

/-- C64: with a memory limit below one frame there is at most one frame in memory, the last one created; it has no neighbours, and
summarises some of the ticks delivered. -/
theorem C64_at_most_one_frame (u : Unit') (q m : ℤ) (hm : m < 1) (fs : FrameSet) (h : List HEv) (hL : Lived u q m fs h) :
    fs.view = fs.heap.drop (fs.heap.length - 1) ∧
    ∀ f ∈ fs.view, f.prev = none ∧ f.next = none ∧ ∃ ts : List Tick, ts.Sublist (h.map HEv.tick) ∧ f.nbTicks = ts.length ∧
      Spec.Summary ts f.first f.high f.low f.last := by
  have H := lived_below hm hL
  rcases H.tiny.current with ⟨-, h1, h2⟩ | ⟨n, f, h1, h2, h3, h4, h5, h6⟩
  · have : fs.view = [] := by unfold FrameSet.view; rw [h2]; rfl
    rw [this, h1]
    simp
  · have : fs.view = [f] := by unfold FrameSet.view; rw [h2]; simp [h3]
    rw [this]
    refine ⟨?_, ?_⟩
    · have hlt : n < fs.heap.length := by omega
      rw [h1, Nat.add_sub_cancel, List.drop_eq_getElem_cons hlt, List.drop_of_length_le (by omega)]
      rw [List.getElem?_eq_getElem hlt] at h3
      rw [Option.some.inj h3]
    · intro g hg
      rw [List.mem_singleton.mp hg]
      exact ⟨h5, h6, H.ticks n f h4⟩

/-- C64: every tick that does not fall in the current frame raises. -/
theorem C64_starting_raises (u : Unit') (q m : ℤ) (hm : m < 1) (fs : FrameSet) (h : List HEv) (hL : Lived u q m fs h)
    (c : Ctx) (t : Tick) (hb : ∀ i f, fs.current = some (i, f) → ¬ Spec.Belongs fs c t f) :
    ∃ e, (fs.feed c t).2 = some e :=
  ((lived_below hm hL).feed hm c t).2 hb

theorem lived_ids {u : Unit'} {q m : ℤ} {fs : FrameSet} {h : List HEv} (hL : Lived u q m fs h) :
    fs.view.length = fs.frames.length ∧ ∀ i : ℕ, fs.view[i]? = (fs.frames[i]?).bind (fun j => fs.heap[j]?) := by
  by_cases hm : m < 1
  · rcases (lived_below hm hL).tiny.current with ⟨-, h1, h2⟩ | ⟨n, f, h1, h2, h3, -⟩
    · unfold FrameSet.view
      rw [h2]
      simp
    · have : fs.view = [f] := by unfold FrameSet.view; rw [h2]; simp [h3]
      rw [this, h2]
      refine ⟨rfl, fun i => ?_⟩
      rcases i with _ | i
      · simp [h3]
      · simp
  · obtain ⟨A, H⟩ := lived_inv (by omega) hL
    have hR := H.rep
    refine ⟨?_, fun i => ?_⟩
    · rw [hR.view_length, hR.frames, List.length_range']; omega
    · rw [hR.view_get, hR.frames]
      by_cases hi : i < A.length - (A.length - fs.maxFrames.toNat)
      · rw [List.getElem?_range' hi]; simp
      · have h1 : (List.range' (A.length - fs.maxFrames.toNat)
            (A.length - (A.length - fs.maxFrames.toNat)))[i]? = none :=
          List.getElem?_eq_none (by rw [List.length_range']; omega)
        rw [h1, Option.bind_none, List.getElem?_eq_none]
        rw [hR.len]; omega

/-- C63: `get_frame(ref, k)` of the epic is the `k`-th frame counted from the most recent one, whatever the memory limit and
whatever raised before. -/
theorem C63_get_frame (ep : Epic) (ref : String) (u : Unit') (q m : ℤ) (fs : FrameSet) (h : List HEv)
    (hfs : ep.frameSets.get? ref = some fs) (hL : Lived u q m fs h) (k : ℕ) :
    ep.getFrame ref k = .ok (fs.view.reverse[k]?) := by
  obtain ⟨h1, h2⟩ := lived_ids hL
  unfold Epic.getFrame FrameSet.getItem pyGet
  rw [hfs]
  simp only
  congr 1
  rw [if_neg (by omega)]
  have e : (-(((k : ℤ) + 1) * -1)).toNat = k + 1 := by omega
  rw [e]
  by_cases hk : k < fs.view.length
  · rw [if_pos (by omega), List.getElem?_reverse hk, h2, h1]
    congr 2
    omega
  · rw [if_neg (by omega), List.getElem?_eq_none (by simpa using hk)]
    rfl

theorem front_lived (l : List Cmd) : ∀ (es : List Epic),
    (∀ e ref g, .addFrameSet e ref g ∈ l → ∃ u q m h, Lived u q m g h) →
    (∀ ep ∈ es, ∀ ref fs, ep.frameSets.get? ref = some fs → ∃ u q m h, Lived u q m fs h) →
    ∀ ep ∈ l.foldl frontStep es, ∀ ref fs, ep.frameSets.get? ref = some fs → ∃ u q m h, Lived u q m fs h := by
  induction l with
  | nil => intro es _ h; exact h
  | cons c l ih =>
    intro es hadd hes
    rw [List.foldl_cons]
    apply ih _ (fun e ref g hm => hadd e ref g (by simp [hm]))
    cases c with
    | op o => exact hes
    | addStrategy e s => exact hes
    | tick e t =>
      simp only [frontStep]
      rcases hep : es[e]? with _ | ep
      · exact hes
      · simp only
        split_ifs
        · exact hes
        · intro x hx ref fs' hg
          rcases List.mem_or_eq_of_mem_set hx with hx | rfl
          · exact hes x hx ref fs' hg
          · obtain ⟨fs, h1, h2⟩ := updateFrameSets_cases _ _ _ _ _ hg
            obtain ⟨u, q, m, h, hL⟩ := hes ep (List.mem_of_getElem? hep) ref fs h1
            rcases h2 with rfl | rfl
            · exact ⟨u, q, m, h, hL⟩
            · exact ⟨u, q, m, _, Lived.tick _ _ hL⟩
    | addFrameSet e r g =>
      simp only [frontStep]
      rcases hep : es[e]? with _ | ep
      · exact hes
      · simp only
        rcases hr : ep.frameSets.get? r with _ | y
        · simp only
          intro x hx ref fs' hg
          rcases List.mem_or_eq_of_mem_set hx with hx | rfl
          · exact hes x hx ref fs' hg
          · rw [Dict.get?_set] at hg
            split_ifs at hg with he
            · injection hg with hg
              subst hg
              exact hadd e r g (by simp)
            · exact hes ep (List.mem_of_getElem? hep) ref fs' hg
        · exact hes
    | addIndicator e r i =>
      simp only [frontStep]
      rcases hep : es[e]? with _ | ep
      · exact hes
      · simp only
        rcases hr : ep.frameSets.get? r with _ | y
        · exact hes
        · simp only
          intro x hx ref fs' hg
          rcases List.mem_or_eq_of_mem_set hx with hx | rfl
          · exact hes x hx ref fs' hg
          · rw [Dict.get?_set] at hg
            split_ifs at hg with he
            · injection hg with hg
              subst hg
              obtain ⟨u, q, m, h, hL⟩ := hes ep (List.mem_of_getElem? hep) r y hr
              exact ⟨u, q, m, h, Lived.ind i hL⟩
            · exact hes ep (List.mem_of_getElem? hep) ref fs' hg

/-- C63: the theorems on lives apply to every frame set of every epic in every run, whatever the callbacks do and raise: if the frame
sets are new when they are registered (or have already received ticks), they have lived afterwards. -/
theorem C63_every_frame_set (env : Env) (w : World) (hw : w.Init) (l : List Cmd)
    (hl : ∀ e ref g, .addFrameSet e ref g ∈ l → ∃ u q m h, Lived u q m g h)
    (ep : Epic) (hep : ep ∈ (w.runCmds env l).epics) (ref : String) (fs : FrameSet) (hfs : ep.frameSets.get? ref = some fs) :
    ∃ h, Lived fs.unit fs.qty fs.maxFrames fs h := by
  have h1 := runCmds_front env l w
  have h2 : ep.front ∈ l.foldl frontStep (w.epics.map Epic.front) := by
    rw [← h1]; exact List.mem_map_of_mem hep
  suffices ∃ u q m h, Lived u q m fs h by
    obtain ⟨u, q, m, h, hL⟩ := this
    have hf : fs.unit = u ∧ fs.qty = q ∧ fs.maxFrames = m := by
      by_cases hm : m < 1
      · have H := lived_below hm hL
        exact ⟨H.unit, H.qty, H.max⟩
      · obtain ⟨A, H⟩ := lived_inv (by omega) hL
        exact ⟨H.unit, H.qty, H.max⟩
    obtain ⟨rfl, rfl, rfl⟩ := hf
    exact ⟨h, hL⟩
  refine front_lived l _ hl ?_ ep.front h2 ref fs hfs
  intro x hx r g hg
  obtain ⟨y, hy, rfl⟩ := List.mem_map.mp hx
  obtain ⟨_, _, _, _, _, _, _, -, rfl⟩ := hw.epics y hy
  cases hg

/-- Spec: the frame holds the one tick `t`. -/
def Spec.Holds (f : Frame) (t : Tick) : Prop := f.nbTicks = 1 ∧ f.first = t ∧ f.high = t ∧ f.low = t ∧ f.last = t

theorem feedCreate_below_noind {fs : FrameSet} (hm : fs.maxFrames < 1) (hT : Tiny fs) (hi : fs.indicators = []) (c : Ctx) (t : Tick)
    (ps : ℤ) (pe : Option ℤ) : ∃ fs' g, fs.feedCreate c t ps pe = (fs', some .index) ∧ fs'.current = some (fs.heap.length, g) ∧
      Spec.Holds g t ∧ g.periodStart = ps ∧ g.periodEnd = pe := by
  rcases feedCreate_below hm hT c t ps pe with ⟨e, -, hr⟩ | ⟨heap', g, hr, -, -, h2, a1, a2, a3, a4, a5, a6, a7, -⟩
  · rw [hi] at hr; cases hr
  · refine ⟨_, g, hr, ?_, ⟨a3, a4, a5, a6, a7⟩, a1, a2⟩
    unfold FrameSet.current
    simp only [List.getLast?_singleton, h2]
    rfl

/-- C64, sets without indicators: a tick in the current frame does not raise; one that starts a frame of a TICK set, or of a timed set
without a gap before it, raises IndexError and is nevertheless the first tick of the new current frame. -/
theorem C64_raised_but_recorded (u : Unit') (q m : ℤ) (hm : m < 1) (fs : FrameSet) (h : List HEv) (hL : Lived u q m fs h)
    (hi : fs.indicators = []) (c : Ctx) (t : Tick) :
    (∀ i f, fs.current = some (i, f) → Spec.Belongs fs c t f → (fs.feed c t).2 = none) ∧
    ((∀ i f, fs.current = some (i, f) → ¬ Spec.Belongs fs c t f) → u = .tick →
      (fs.feed c t).2 = some .index ∧ ∃ g, (fs.feed c t).1.current = some (fs.heap.length, g) ∧ Spec.Holds g t) ∧
    ((∀ i f, fs.current = some (i, f) → ¬ Spec.Belongs fs c t f) → u ≠ .tick → ∀ ps, frameStart u q t.dt.wall = .ok ps →
      (∀ i f, fs.current = some (i, f) → ∃ pe, f.periodEnd = some pe ∧ ps ≤ pe) →
      (fs.feed c t).2 = some .index ∧ ∃ g, (fs.feed c t).1.current = some (fs.heap.length, g) ∧ Spec.Holds g t ∧
        g.periodStart = ps) := by
  have H := lived_below hm hL
  have hmf : fs.maxFrames < 1 := by rw [H.max]; exact hm
  refine ⟨?_, ?_, ?_⟩
  · intro i f hc hb
    rw [feed_belongs hc hb]
    unfold FrameSet.feedLast
    rw [hc, hi]
    rfl
  · intro hb hu
    rw [feed_not_belongs hb, if_pos (by rw [H.unit]; exact hu)]
    obtain ⟨fs', g, hr, h1, h2, -⟩ := feedCreate_below_noind hmf H.tiny hi c t t.dt.wall none
    rw [hr]
    exact ⟨rfl, g, h1, h2⟩
  · intro hb hu ps hps hgap
    rw [feed_not_belongs hb, if_neg (by rw [H.unit]; exact hu)]
    obtain ⟨fs', g, hr, h1, h2, h3, -⟩ := feedCreate_below_noind hmf H.tiny hi c t ps (some (frameEnd c.zone fs.unit fs.qty ps))
    have hok : ∃ b, fs.overTimed t = .ok b := by
      unfold FrameSet.overTimed
      rcases hcur : fs.current with _ | ⟨i, f⟩
      · exact ⟨_, rfl⟩
      · obtain ⟨pe, hpe, -⟩ := hgap i f hcur
        simp only [hpe]
        exact ⟨_, rfl⟩
    obtain ⟨b, hok⟩ := hok
    have hfill : feedFill c ps (fillFuel fs ps) fs = (fs, none) := by
      unfold feedFill
      rcases hcur : fs.current with _ | ⟨i, f⟩
      · rfl
      · obtain ⟨pe, hpe, hle⟩ := hgap i f hcur
        simp only [hpe]
        rw [if_neg (by omega)]
    rw [hok]
    simp only
    unfold FrameSet.feedTimed
    rw [H.unit, H.qty, hps]
    simp only
    rw [hfill]
    simp only
    rw [← H.unit, ← H.qty, hr]
    exact ⟨rfl, g, h1, h2, h3⟩

/-- C64, timed sets without indicators: when at least one period without tick lies before it, the raising tick is lost. The new current frame
is that of the period just after the previous frame, and holds the previous tick. -/
theorem C64_gap_loses_tick (u : Unit') (q m : ℤ) (hm : m < 1) (fs : FrameSet) (h : List HEv) (hL : Lived u q m fs h)
    (hi : fs.indicators = []) (c : Ctx) (t : Tick) (hu : u ≠ .tick) (i : ℕ) (f : Frame) (pe ps : ℤ)
    (hc : fs.current = some (i, f)) (hpe : f.periodEnd = some pe) (hle : pe ≤ t.dt.wall) (hps : frameStart u q t.dt.wall = .ok ps)
    (hlt : pe < ps) :
    (fs.feed c t).2 = some .index ∧ ∃ g, (fs.feed c t).1.current = some (fs.heap.length, g) ∧ Spec.Holds g f.last ∧
      g.periodStart = pe := by
  have H := lived_below hm hL
  have hmf : fs.maxFrames < 1 := by rw [H.max]; exact hm
  obtain ⟨fs', g, hr, h1, h2, h3, -⟩ :=
    feedCreate_below_noind hmf H.tiny hi c f.last pe (some (frameEnd c.zone fs.unit fs.qty pe))
  have hb : ∀ i f, fs.current = some (i, f) → ¬ Spec.Belongs fs c t f := by
    intro i' f' hc' hb
    rw [hc] at hc'
    injection hc' with hc'
    injection hc' with _ hc'
    subst hc'
    unfold Spec.Belongs at hb
    rw [if_neg (by rw [H.unit]; exact hu), hpe] at hb
    obtain ⟨x, hx, hlt'⟩ := hb
    injection hx with hx
    omega
  rw [feed_not_belongs hb, if_neg (by rw [H.unit]; exact hu)]
  unfold FrameSet.overTimed
  rw [hc]
  simp only [hpe]
  unfold FrameSet.feedTimed
  rw [H.unit, H.qty, hps]
  simp only
  have hn : fillFuel fs ps = (ps - pe).toNat - 1 + 1 := by
    unfold fillFuel
    rw [hc]
    simp only [hpe]
    omega
  have hfill : feedFill c ps (fillFuel fs ps) fs = (fs', some .index) := by
    rw [hn]
    unfold feedFill
    rw [hc]
    simp only [hpe]
    rw [if_pos hlt, hr]
  rw [hfill]
  exact ⟨rfl, g, h1, h2, h3⟩

/-! ## Concrete cases -/

/-- Ticks at a given number of seconds after a midnight, on a detached set. -/
def atSeconds (s : ℤ) (v : ℚ) : Ctx × Tick :=
  (⟨Zone.utc, none⟩, ⟨⟨midnight 2020 1 1 + s * 1000000, midnight 2020 1 1 + s * 1000000, 0⟩, v, v⟩)

/-- Feeding ticks and going on after exceptions: the exceptions. -/
def liveAll : FrameSet → List (Ctx × Tick) → FrameSet × List (Option PyErr)
  | fs, [] => (fs, [])
  | fs, p :: r => let x := fs.feed p.1 p.2; let y := liveAll x.1 r; (y.1, x.2 :: y.2)

theorem lived_liveAll {u : Unit'} {q m : ℤ} (l : List (Ctx × Tick)) : ∀ {fs : FrameSet} {h : List HEv}, Lived u q m fs h →
    ∃ h', Lived u q m (liveAll fs l).1 (h ++ h') ∧ h'.map (fun e => (e.ctx, e.tick)) = l := by
  induction l with
  | nil => intro fs h hL; exact ⟨[], by simpa [liveAll] using hL, rfl⟩
  | cons p r ih =>
    intro fs h hL
    obtain ⟨h', h1, h2⟩ := ih (Lived.tick p.1 p.2 hL)
    exact ⟨⟨p.1, p.2, fs.indicators⟩ :: h', by simpa [liveAll] using h1, by simp [h2]⟩

/-- C63: one-minute frames, two in memory.  An RSI without periods is added after the first tick: the tick at 0:30 raises and is
recorded, the one at 1:10 raises and is not. -/
example : letI := Arith.exact
    (let fs := (liveAll ⟨.minute, 1, 2, [], [], []⟩ [atSeconds 5 1]).1
     let r := liveAll (fs.addIndicator ⟨"rsi", .rsi 0 none, false⟩).1 [atSeconds 30 4, atSeconds 70 9]
     (r.2, r.1.view.map (fun f => (f.nbTicks, f.first.bid, f.last.bid)))) =
    ([some .indicator, some .indicator], [(2, 1, 4)]) := by
  letI := Arith.exact
  decide +kernel

/-- C64: one-minute frames, no memory.  The first tick raises and starts a frame, the second is in it, the third starts the next frame, the
fourth comes after a gap and is lost: the current frame is that of the third minute and holds the third tick. -/
example : letI := Arith.exact
    (let r := liveAll ⟨.minute, 1, 0, [], [], []⟩ [atSeconds 5 1, atSeconds 30 2, atSeconds 70 3, atSeconds 300 4]
     (r.2, r.1.view.map (fun f => (f.nbTicks, f.first.bid, f.last.bid, (f.periodStart - midnight 2020 1 1) / 1000000)))) =
    ([some .index, none, some .index, some .index], [(1, 3, 3, 120)]) := by
  letI := Arith.exact
  decide +kernel

/-- A life of four ticks, three of which raise, for the hypotheses of C63 and C64. -/
example : letI := Arith.exact
    ∃ fs h, Lived .minute 1 0 fs h ∧ h.map (fun e => e.tick.bid) = [1, 2, 3, 4] ∧ fs.view.length = 1 := by
  letI := Arith.exact
  obtain ⟨h', h1, h2⟩ := lived_liveAll [atSeconds 5 1, atSeconds 30 2, atSeconds 70 3, atSeconds 300 4]
    (Lived.new (u := .minute) (q := 1) (m := 0))
  refine ⟨_, _, h1, ?_, ?_⟩
  · have := congrArg (List.map (fun p : Ctx × Tick => p.2.bid)) h2
    simpa [Function.comp_def, atSeconds] using this
  · decide +kernel

end Estrade
