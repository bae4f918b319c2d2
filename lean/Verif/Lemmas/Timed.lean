import Verif.Lemmas.FrameRep
import Verif.Lemmas.Grid

/-!
# A timed frame set groups its history by period
-/

set_option autoImplicit false
set_option linter.unusedSectionVars false

namespace Estrade

variable [Arith]

def HEv.wall (e : HEv) : ℤ := e.tick.dt.wall
def HEv.ev (e : HEv) : Ev := ⟨e.tick, e.ctx.marketOpen, e.reg⟩

/-- The events of the history in the period `[s, e)`. -/
def inside (h : List HEv) (s e : ℤ) : List HEv :=
  h.filter (fun x => decide (s ≤ x.wall) && decide (x.wall < e))

/-- The abstract frame of the period `[s, e)`. -/
def periodAF (h : List HEv) (s e : ℤ) : AF :=
  ⟨s, some e,
    if inside h s e = [] then
      match (h.filter (fun x => decide (x.wall < s))).getLast?,
          (h.filter (fun x => decide (e ≤ x.wall))).head? with
      | some p, some n => [⟨p.tick, n.ctx.marketOpen, n.reg⟩]
      | _, _ => []
    else (inside h s e).map HEv.ev⟩

/-- The abstract frames from the period of the first event to the period of the last one. -/
def timedAF (u : Unit') (q : ℤ) (h : List HEv) : List AF :=
  match h.head?, h.getLast? with
  | some a, some b =>
    (List.range (gidx u q b.wall - gidx u q a.wall + 1).toNat).map (fun (j : ℕ) =>
      periodAF h (grid u q (gidx u q a.wall + j)) (grid u q (gidx u q a.wall + j + 1)))
  | _, _ => []

/-! ## Errors other than divergence -/

theorem nd_bind {α β : Type} {x : Except PyErr α} {f : α → Except PyErr β} (hx : x ≠ .error .diverge)
    (hf : ∀ a, f a ≠ .error .diverge) : (x >>= f) ≠ .error .diverge := by
  rcases x with e | a
  · intro h; cases h; exact hx rfl
  · exact hf a

theorem pyDiv_nd {x y : ℚ} : pyDiv x y ≠ .error .diverge := by
  unfold pyDiv; split_ifs <;> simp

theorem buildRsi_nd {n : ℤ} {l : List ℚ} : buildRsi n l ≠ .error .diverge := by
  unfold buildRsi
  simp only
  split_ifs
  · simp
  · simp
  · exact nd_bind pyDiv_nd fun _ => nd_bind pyDiv_nd fun _ => nd_bind pyDiv_nd fun _ =>
      nd_bind pyDiv_nd fun _ => by simp

theorem updateRsi_nd {heap : List Frame} {f : Frame} {n : ℤ} {v : IndVal} :
    updateRsi heap f n v ≠ .error .diverge := by
  unfold updateRsi
  simp only
  split_ifs
  · exact nd_bind buildRsi_nd fun _ => by simp
  · simp

theorem prevCloses_nd {heap : List Frame} {p : IndVal} : prevCloses heap p ≠ .error .diverge := by
  unfold prevCloses
  split
  · split <;> simp
  · simp

theorem prevChanges_nd {heap : List Frame} {p : IndVal} : prevChanges heap p ≠ .error .diverge := by
  unfold prevChanges
  split
  · split <;> simp
  · simp

theorem IndVal.new_nd {heap : List Frame} {ind : Indicator} {id : ℕ} {f : Frame} :
    IndVal.new heap ind id f ≠ .error .diverge := by
  unfold IndVal.new
  simp only
  split
  · split
    · simp [bind, Except.bind]
    · exact nd_bind prevCloses_nd fun _ => by simp
  · split
    · simp
    · split_ifs
      · simp
      · split
        · exact updateRsi_nd
        · exact nd_bind prevChanges_nd fun _ => updateRsi_nd
  · simp

theorem Indicator.build_nd {heap : List Frame} {ind : Indicator} {id : ℕ} {f : Frame} {mo : Bool} :
    ind.build heap id f mo ≠ .error .diverge := by
  unfold Indicator.build
  simp only [bind, Except.bind]
  split_ifs
  · rcases hb : IndVal.new heap ind id f with e | r
    · rintro h; cases h; exact IndVal.new_nd hb
    · simp
  · simp

theorem upsertOne_nd {heap : List Frame} {id : ℕ} {t : Tick} {mo : Bool} {f : Frame}
    {p : String × Indicator} : upsertOne heap id t mo f p ≠ .error .diverge := by
  unfold upsertOne
  simp only [bind, Except.bind]
  split
  · rename_i v _
    have : v.onNewTick heap f t mo ≠ .error .diverge := by
      unfold IndVal.onNewTick
      simp only
      split
      · exact updateRsi_nd
      · simp
    rcases hb : v.onNewTick heap f t mo with e | r
    · rintro h; cases h; exact this hb
    · simp
  · rcases hb : p.2.build heap id f mo with e | r
    · rintro h; cases h; exact Indicator.build_nd hb
    · simp

theorem upsert_nd {heap : List Frame} {id : ℕ} {t : Tick} {mo : Bool} {inds : Dict Indicator}
    {f : Frame} : upsert heap id t mo inds f ≠ .error .diverge := by
  unfold upsert
  induction inds generalizing f with
  | nil => simp [pure, Except.pure]
  | cons p rest ih =>
    rw [List.foldlM_cons]
    simp only [bind, Except.bind]
    rcases hb : upsertOne heap id t mo f p with e | r
    · rintro h; cases h; exact upsertOne_nd hb
    · exact ih

theorem cleanLoop_nd {max : ℤ} {heap : List Frame} {l : List ℕ} :
    cleanLoop max heap l ≠ .error .diverge := by
  induction l generalizing heap with
  | nil => simp only [cleanLoop]; split_ifs <;> simp
  | cons a l ih =>
    cases l with
    | nil => simp only [cleanLoop]; split_ifs <;> simp
    | cons b r =>
      simp only [cleanLoop]
      split_ifs
      · exact ih
      · simp

theorem createFrame_nd {fs : FrameSet} {c : Ctx} {t : Tick} {ps : ℤ} {pe : Option ℤ} :
    fs.createFrame c t ps pe ≠ .error .diverge := by
  unfold FrameSet.createFrame
  simp only [bind, Except.bind]
  split
  · rintro h; cases h; rename_i hb; exact upsert_nd hb
  split
  · rintro h; cases h; rename_i hb; exact cleanLoop_nd hb
  · simp

/-! ## The gap filling loop -/

def fillers (u : Unit') (q : ℤ) (e : Ev) (k : ℤ) (d : ℕ) : List AF :=
  (List.range d).map (fun (j : ℕ) => ⟨grid u q (k + j), some (grid u q (k + j + 1)), [e]⟩)

theorem fillers_succ (u : Unit') (q : ℤ) (e : Ev) (k : ℤ) (d : ℕ) :
    fillers u q e k (d + 1) = ⟨grid u q k, some (grid u q (k + 1)), [e]⟩ :: fillers u q e (k + 1) d := by
  unfold fillers
  rw [List.range_succ_eq_map, List.map_cons, List.map_map]
  congr 1
  · simp
  · apply List.map_congr_left
    intro j _
    simp only [Function.comp, Nat.succ_eq_add_one]
    rw [show k + ((j + 1 : ℕ) : ℤ) = k + 1 + j by push_cast; ring]

theorem Core.last_eq {a : AF} {f : Frame} (h : Core a f) {e : Ev} (he : a.evs.getLast? = some e) :
    f.last = e.tick := by
  have := h.sum.last
  rw [List.getLast?_map, he] at this
  exact (Option.some.inj this).symm

theorem fillLoop_grid {u : Unit'} {q m : ℤ} (hT : Tiles u q) (hm : 1 ≤ m) {c : Ctx}
    (d : ℕ) : ∀ (fs : FrameSet) (B : List AF) (a : AF) (e : Ev) (k : ℤ) (fuel : ℕ),
    (∀ j, k < j → j ≤ k + d → c.zone.resolve (grid u q j) = grid u q j) → Built u q m fs (B ++ [a]) → a.stop = some (grid u q k) → a.evs.getLast? = some e → d ≤ fuel →
    (∀ fs', fillLoop c (grid u q (k + d)) fuel fs = .ok fs' →
      Built u q m fs' (B ++ [a] ++ fillers u q ⟨e.tick, c.marketOpen, fs.indicators⟩ k d) ∧
      fs'.indicators = fs.indicators) ∧
    fillLoop c (grid u q (k + d)) fuel fs ≠ .error .diverge := by
  induction d with
  | zero =>
    intro fs B a e k fuel hz hB hs he hf
    obtain ⟨f, hc, hg, hco⟩ := (hB.rep hm).current (by rw [hB.fields.2.2]; exact hm)
    have : fillLoop c (grid u q (k + (0 : ℕ))) fuel fs = .ok fs := by
      rw [fillLoop, hc]
      simp only [hco.stop, hs, Nat.cast_zero, add_zero, lt_irrefl, if_false]
    rw [this]
    refine ⟨?_, by simp⟩
    rintro fs' h
    cases h
    simpa [fillers] using hB
  | succ d ih =>
    intro fs B a e k fuel hz hB hs he hf
    obtain ⟨f, hc, hg, hco⟩ := (hB.rep hm).current (by rw [hB.fields.2.2]; exact hm)
    obtain ⟨fuel, rfl⟩ : ∃ n, fuel = n + 1 := ⟨fuel - 1, by omega⟩
    have hlt : grid u q k < grid u q (k + (d + 1 : ℕ)) := grid_strictMono hT (by push_cast; omega)
    have step : fillLoop c (grid u q (k + (d + 1 : ℕ))) (fuel + 1) fs =
        (fs.createFrame c e.tick (grid u q k) (some (grid u q (k + 1)))).bind
          (fun fs' => fillLoop c (grid u q (k + (d + 1 : ℕ))) fuel fs') := by
      rw [fillLoop, hc]
      simp only [hco.stop, hs, if_pos hlt, hco.last_eq he, hB.fields.1, hB.fields.2.1,
        frameEnd_grid_kept hT (hz (k + 1) (by omega) (by push_cast; omega))]
      rfl
    rw [step]
    rcases hcr : fs.createFrame c e.tick (grid u q k) (some (grid u q (k + 1))) with er | fs1
    · refine ⟨fun _ h => (by cases h), ?_⟩
      intro h
      cases h
      exact createFrame_nd hcr
    · have hB1 := Built.create c e.tick _ _ hB hcr
      have hi1 : fs1.indicators = fs.indicators := by rw [createFrame_fields hcr]
      have := ih fs1 (B ++ [a]) _ _ (k + 1) fuel
        (fun j h1 h2 => hz j (by omega) (by push_cast; omega)) hB1 rfl rfl (by omega)
      rw [show k + 1 + (d : ℤ) = k + ((d + 1 : ℕ) : ℤ) by push_cast; ring] at this
      refine ⟨?_, this.2⟩
      intro fs' h
      obtain ⟨g1, g2⟩ := this.1 fs' h
      refine ⟨?_, g2.trans hi1⟩
      rw [hi1] at g1
      rw [fillers_succ]
      simpa using g1

theorem grid_gap {u : Unit'} {q : ℤ} (hT : Tiles u q) (k : ℤ) (d : ℕ) :
    grid u q k + d ≤ grid u q (k + d) := by
  induction d with
  | zero => simp
  | succ d ih =>
    have : grid u q (k + d) < grid u q (k + (d + 1 : ℕ)) := grid_strictMono hT (by push_cast; omega)
    push_cast at *; omega

theorem frameStart_ok {u : Unit'} {q w s : ℤ} (hT : Tiles u q) (h : frameStart u q w = .ok s) :
    s = grid u q (gidx u q w) := by
  by_cases hs : StartOk u q w
  · rw [frameStart_grid hT hs] at h; exact (Except.ok.inj h).symm
  · exfalso
    cases u <;> try (exact hs trivial)
    · apply hs
      simp only [frameStart, if_neg hT.1.ne', replaceFirst] at h
      by_contra hc
      rw [if_pos (by left; unfold StartOk at hc; omega)] at h
      cases h
    · apply hs
      simp only [frameStart, if_neg hT.1.ne', replaceFirst, fmod_pos _ hT.1] at h
      by_contra hc
      rw [if_pos (by left; unfold StartOk at hc; omega)] at h
      cases h

/-! ## One tick -/

theorem createTimed_grid {u : Unit'} {q m : ℤ} (hT : Tiles u q) (hm : 1 ≤ m) {c : Ctx}
    {fs : FrameSet} {B : List AF} {a : AF} {e : Ev} {k : ℤ} {t : Tick} {d : ℕ}
    (hz : ∀ j, k < j → j ≤ k + d + 1 → c.zone.resolve (grid u q j) = grid u q j)
    (hB : Built u q m fs (B ++ [a])) (hs : a.stop = some (grid u q k)) (he : a.evs.getLast? = some e)
    (hw : gidx u q t.dt.wall = k + d) :
    (∀ fs', fs.createTimed c t = .ok fs' →
      Built u q m fs' (B ++ [a] ++ fillers u q ⟨e.tick, c.marketOpen, fs.indicators⟩ k d ++
        [⟨grid u q (k + d), some (grid u q (k + d + 1)), [⟨t, c.marketOpen, fs.indicators⟩]⟩])) ∧
    fs.createTimed c t ≠ .error .diverge := by
  obtain ⟨f, hc, hg, hco⟩ := (hB.rep hm).current (by rw [hB.fields.2.2]; exact hm)
  unfold FrameSet.createTimed
  rw [hB.fields.1, hB.fields.2.1]
  simp only [bind, Except.bind]
  rcases hfs : frameStart u q t.dt.wall with er | s
  · refine ⟨fun _ h => (by cases h), ?_⟩
    intro h; cases h
    have : ∀ y m : ℤ, replaceFirst y m ≠ .error .diverge := by
      intro y m; unfold replaceFirst; split_ifs <;> simp
    cases u <;> simp only [frameStart, if_neg hT.1.ne'] at hfs <;> first | cases hfs | exact this _ _ hfs
  · have hsg := frameStart_ok hT hfs
    rw [hw] at hsg
    subst hsg
    simp only
    have hfuel : d ≤ fillFuel fs (grid u q (k + d)) := by
      unfold fillFuel
      rw [hc]
      simp only [hco.stop, hs]
      have := grid_gap hT k d
      omega
    obtain ⟨g1, g2⟩ := fillLoop_grid hT hm d fs B a e k _ (fun j h1 h2 => hz j h1 (by omega)) hB hs he hfuel
    rcases hfl : fillLoop c (grid u q (k + d)) (fillFuel fs (grid u q (k + d))) fs with er | fs1
    · refine ⟨fun _ h => (by cases h), ?_⟩
      intro h; cases h; exact g2 hfl
    · obtain ⟨hB1, hi1⟩ := g1 fs1 hfl
      simp only [frameEnd_grid_kept hT (hz (k + d + 1) (by omega) le_rfl)]
      refine ⟨?_, createFrame_nd⟩
      intro fs' h
      have := Built.create c t _ _ hB1 h
      rwa [hi1] at this

theorem createTimed_first {u : Unit'} {q m : ℤ} (hT : Tiles u q) (hm : 1 ≤ m) {c : Ctx}
    {fs : FrameSet} {t : Tick} {k : ℤ} (hz : c.zone.resolve (grid u q (k + 1)) = grid u q (k + 1))
    (hB : Built u q m fs []) (hw : gidx u q t.dt.wall = k) :
    (∀ fs', fs.createTimed c t = .ok fs' →
      Built u q m fs' [⟨grid u q k, some (grid u q (k + 1)), [⟨t, c.marketOpen, fs.indicators⟩]⟩]) ∧
    fs.createTimed c t ≠ .error .diverge := by
  have hc := (hB.rep hm).current_none
  unfold FrameSet.createTimed
  rw [hB.fields.1, hB.fields.2.1]
  simp only [bind, Except.bind]
  rcases hfs : frameStart u q t.dt.wall with er | s
  · refine ⟨fun _ h => (by cases h), ?_⟩
    intro h; cases h
    have : ∀ y m : ℤ, replaceFirst y m ≠ .error .diverge := by
      intro y m; unfold replaceFirst; split_ifs <;> simp
    cases u <;> simp only [frameStart, if_neg hT.1.ne'] at hfs <;> first | cases hfs | exact this _ _ hfs
  · have hsg := frameStart_ok hT hfs
    rw [hw] at hsg
    subst hsg
    simp only
    have : fillLoop c (grid u q k) (fillFuel fs (grid u q k)) fs = .ok fs := by
      rw [fillLoop, hc]
    rw [this]
    simp only [frameEnd_grid_kept hT hz]
    refine ⟨?_, createFrame_nd⟩
    intro fs' h
    exact Built.create c t _ _ hB h

/-! ## The grouping -/

theorem periodAF_snoc_before {h : List HEv} {x : HEv} {s e : ℤ} (hx : e ≤ x.wall) (hse : s < e)
    (hne : inside h s e ≠ [] ∨ ∃ y ∈ h, e ≤ y.wall) : periodAF (h ++ [x]) s e = periodAF h s e := by
  have h1 : inside (h ++ [x]) s e = inside h s e := by
    unfold inside
    rw [List.filter_append, List.filter_singleton]
    simp [not_lt.mpr hx]
  have h2 : (h ++ [x]).filter (fun x => decide (x.wall < s)) = h.filter (fun x => decide (x.wall < s)) := by
    rw [List.filter_append, List.filter_singleton]
    simp [not_lt.mpr (hse.le.trans hx)]
  unfold periodAF
  rw [h1, h2]
  by_cases hi : inside h s e = []
  · have : ∃ y ∈ h, e ≤ y.wall := hne.resolve_left (not_not.mpr hi)
    have h3 : ((h ++ [x]).filter (fun x => decide (e ≤ x.wall))).head? =
        (h.filter (fun x => decide (e ≤ x.wall))).head? := by
      rw [List.filter_append]
      obtain ⟨y, hy, hle⟩ := this
      have : h.filter (fun x => decide (e ≤ x.wall)) ≠ [] :=
        List.ne_nil_of_mem (List.mem_filter.mpr ⟨hy, by simpa using hle⟩)
      rw [List.head?_append_of_ne_nil _ this]
    rw [h3]
  · rw [if_neg hi, if_neg hi]

theorem inside_nil {h : List HEv} {s e : ℤ} (hb : ∀ y ∈ h, y.wall < s) : inside h s e = [] := by
  unfold inside
  rw [List.filter_eq_nil_iff]
  intro y hy
  simp [not_le.mpr (hb y hy)]

theorem periodAF_snoc_gap {h : List HEv} {x l : HEv} {s e : ℤ} (hx : e ≤ x.wall) (hse : s < e)
    (hl : h.getLast? = some l) (hb : ∀ y ∈ h, y.wall < s) :
    periodAF (h ++ [x]) s e = ⟨s, some e, [⟨l.tick, x.ctx.marketOpen, x.reg⟩]⟩ := by
  have h1 : inside (h ++ [x]) s e = [] := by
    unfold inside
    rw [List.filter_append, List.filter_singleton]
    have := inside_nil (e := e) hb
    unfold inside at this
    rw [this]
    simp [not_lt.mpr hx]
  have h2 : (h ++ [x]).filter (fun x => decide (x.wall < s)) = h := by
    rw [List.filter_append, List.filter_singleton, List.filter_eq_self.mpr (by simpa using hb)]
    simp [not_lt.mpr (hse.le.trans hx)]
  have h3 : (h ++ [x]).filter (fun x => decide (e ≤ x.wall)) = [x] := by
    rw [List.filter_append, List.filter_singleton]
    have : h.filter (fun x => decide (e ≤ x.wall)) = [] := by
      rw [List.filter_eq_nil_iff]
      intro y hy
      simp [not_le.mpr ((hb y hy).trans hse)]
    rw [this]; simp [hx]
  unfold periodAF
  rw [h1, if_pos rfl, h2, h3, hl]
  rfl

theorem periodAF_snoc_new {h : List HEv} {x : HEv} {s e : ℤ} (h1 : s ≤ x.wall) (h2 : x.wall < e)
    (hb : ∀ y ∈ h, y.wall < s) : periodAF (h ++ [x]) s e = ⟨s, some e, [x.ev]⟩ := by
  have : inside (h ++ [x]) s e = [x] := by
    unfold inside
    rw [List.filter_append, List.filter_singleton]
    have := inside_nil (e := e) hb
    unfold inside at this
    rw [this]
    simp [h1, h2]
  unfold periodAF
  rw [this, if_neg (by simp)]
  rfl

theorem periodAF_snoc_in {h : List HEv} {x : HEv} {s e : ℤ} (h1 : s ≤ x.wall) (h2 : x.wall < e)
    (hne : inside h s e ≠ []) :
    periodAF (h ++ [x]) s e = { periodAF h s e with evs := (periodAF h s e).evs ++ [x.ev] } := by
  have : inside (h ++ [x]) s e = inside h s e ++ [x] := by
    unfold inside
    rw [List.filter_append, List.filter_singleton]
    simp [h1, h2]
  unfold periodAF
  simp only [this, if_neg hne, List.append_eq_nil_iff, List.map_append, List.map_cons, List.map_nil]
  simp

def Sorted (h : List HEv) : Prop := h.Pairwise (fun a b => a.wall ≤ b.wall)

theorem Sorted.le_last {h : List HEv} {l : HEv} (hs : Sorted h) (hl : h.getLast? = some l) :
    ∀ y ∈ h, y.wall ≤ l.wall := by
  obtain ⟨h', rfl⟩ := List.getLast?_eq_some_iff.mp hl
  intro y hy
  rcases List.mem_append.mp hy with hy | hy
  · exact (List.pairwise_append.mp hs).2.2 y hy l (by simp)
  · rw [List.mem_singleton.mp hy]

theorem Sorted.head_le {h : List HEv} {a : HEv} (hs : Sorted h) (ha : h.head? = some a) :
    ∀ y ∈ h, a.wall ≤ y.wall := by
  obtain ⟨h', rfl⟩ := List.head?_eq_some_iff.mp ha
  intro y hy
  rcases List.mem_cons.mp hy with hy | hy
  · rw [hy]
  · exact (List.pairwise_cons.mp hs).1 y hy

theorem range_map_split {α : Type} (f : ℤ → α) (n : ℕ) :
    (List.range (n + 1)).map (fun (j : ℕ) => f j) = (List.range n).map (fun (j : ℕ) => f j) ++ [f n] := by
  rw [List.range_succ, List.map_append]; rfl

/-- The grouping of a longer history, seen from the shorter one. -/
theorem timedAF_snoc {u : Unit'} {q : ℤ} (hT : Tiles u q) {h : List HEv} {x l : HEv}
    (hs : Sorted (h ++ [x])) (hl : h.getLast? = some l) :
    ∃ B, timedAF u q h = B ++ [periodAF h (grid u q (gidx u q l.wall)) (grid u q (gidx u q l.wall + 1))] ∧
    timedAF u q (h ++ [x]) =
      if x.wall < grid u q (gidx u q l.wall + 1) then
        B ++ [{ periodAF h (grid u q (gidx u q l.wall)) (grid u q (gidx u q l.wall + 1)) with
          evs := (periodAF h (grid u q (gidx u q l.wall)) (grid u q (gidx u q l.wall + 1))).evs ++ [x.ev] }]
      else
        B ++ [periodAF h (grid u q (gidx u q l.wall)) (grid u q (gidx u q l.wall + 1))] ++
        fillers u q ⟨l.tick, x.ctx.marketOpen, x.reg⟩ (gidx u q l.wall + 1)
          (gidx u q x.wall - gidx u q l.wall - 1).toNat ++
        [⟨grid u q (gidx u q x.wall), some (grid u q (gidx u q x.wall + 1)), [x.ev]⟩] := by
  obtain ⟨a, ha⟩ : ∃ a, h.head? = some a := by
    cases h with
    | nil => simp at hl
    | cons a h => exact ⟨a, rfl⟩
  have hsh : Sorted h := (List.pairwise_append.mp hs).1
  have hlx : l.wall ≤ x.wall := (List.pairwise_append.mp hs).2.2 l (List.mem_of_getLast? hl) x (by simp)
  have hle := hsh.le_last hl
  have hal : a.wall ≤ l.wall := hle a (List.mem_of_head? ha)
  have k01 := gidx_mono hT hal
  have k12 := gidx_mono hT hlx
  have hmem := List.mem_of_getLast? hl
  obtain ⟨gl1, gl2⟩ := gidx_spec hT l.wall
  obtain ⟨gx1, gx2⟩ := gidx_spec hT x.wall
  have mono := grid_strictMono hT
  have ha' : (h ++ [x]).head? = some a := by rw [List.head?_append, ha]; rfl
  have hl' : (h ++ [x]).getLast? = some x := by simp
  unfold timedAF
  simp only [ha, hl, ha', hl']
  generalize hk0 : gidx u q a.wall = k0 at *
  generalize hk1 : gidx u q l.wall = k1 at *
  generalize hk2 : gidx u q x.wall = k2 at *
  obtain ⟨n1, hn1⟩ : ∃ n : ℕ, k1 = k0 + n := ⟨(k1 - k0).toNat, by omega⟩
  have hin : inside h (grid u q k1) (grid u q (k1 + 1)) ≠ [] :=
    List.ne_nil_of_mem (List.mem_filter.mpr ⟨hmem, by simp [gl1, gl2]⟩)
  refine ⟨(List.range n1).map (fun (j : ℕ) => periodAF h (grid u q (k0 + j)) (grid u q (k0 + j + 1))), ?_, ?_⟩
  · rw [show (k1 - k0 + 1).toNat = n1 + 1 by omega, List.range_succ, List.map_append, hn1]
    rfl
  have hB : (List.range n1).map (fun (j : ℕ) => periodAF (h ++ [x]) (grid u q (k0 + j)) (grid u q (k0 + j + 1)))
      = (List.range n1).map (fun (j : ℕ) => periodAF h (grid u q (k0 + j)) (grid u q (k0 + j + 1))) := by
    apply List.map_congr_left
    intro j hj
    have hj := List.mem_range.mp hj
    have hle1 : grid u q (k0 + j + 1) ≤ grid u q k1 := mono.monotone (by omega)
    refine periodAF_snoc_before ((hle1.trans gl1).trans hlx) (mono (by omega)) (.inr ⟨l, hmem, hle1.trans gl1⟩)
  by_cases hc : x.wall < grid u q (k1 + 1)
  · rw [if_pos hc]
    have hk : k2 = k1 := by rw [← hk2]; exact gidx_unique hT (gl1.trans hlx) hc
    subst hk
    rw [show (k2 - k0 + 1).toNat = n1 + 1 by omega, List.range_succ, List.map_append, hB, hn1]
    congr 1
    simp only [List.map_cons, List.map_nil]
    rw [← hn1, periodAF_snoc_in (gl1.trans hlx) hc hin]
  · rw [if_neg hc]
    push Not at hc
    have hk : k1 < k2 := by
      by_contra hk
      have : grid u q (k2 + 1) ≤ grid u q (k1 + 1) := mono.monotone (by omega)
      omega
    obtain ⟨d, hd⟩ : ∃ d : ℕ, k2 = k1 + 1 + d := ⟨(k2 - k1 - 1).toNat, by omega⟩
    rw [show (k2 - k0 + 1).toNat = (n1 + 1 + d) + 1 by omega, List.range_succ, List.range_add,
      List.range_succ]
    simp only [List.map_append, List.map_cons, List.map_nil, List.map_map]
    have hb : ∀ y ∈ h, y.wall < grid u q (k1 + 1) := fun y hy => (hle y hy).trans_lt gl2
    rw [hB, show (k2 - k1 - 1).toNat = d by omega]
    congr 1
    · congr 1
      · rw [← hn1, periodAF_snoc_before hc (mono (by omega)) (.inl hin)]
      · unfold fillers
        apply List.map_congr_left
        intro j hj
        have hj := List.mem_range.mp hj
        simp only [Function.comp]
        rw [show k0 + ((n1 + 1 + j : ℕ) : ℤ) = k1 + 1 + j by push_cast; omega]
        have hle1 : grid u q (k1 + 1 + j + 1) ≤ grid u q k2 := mono.monotone (by omega)
        refine periodAF_snoc_gap (hle1.trans gx1) (mono (by omega)) hl ?_
        intro y hy
        exact (hb y hy).trans_le (mono.monotone (by omega))
    · rw [show k0 + ((n1 + 1 + d : ℕ) : ℤ) = k2 by push_cast; omega]
      rw [periodAF_snoc_new gx1 gx2]
      intro y hy
      exact (hb y hy).trans_le (mono.monotone (by omega))

/-- No boundary of the grid between a tick of the history and the end of the frame of the tick `e` is skipped in the
zone of `e`. -/
def GridKept (u : Unit') (q : ℤ) (h : List HEv) : Prop := ∀ e ∈ h, ∀ x ∈ h, ∀ k, gidx u q x.wall < k →
  k ≤ gidx u q e.wall + 1 → e.ctx.zone.resolve (grid u q k) = grid u q k

theorem GridKept.mono {u : Unit'} {q : ℤ} {h : List HEv} {x : HEv} (H : GridKept u q (h ++ [x])) : GridKept u q h :=
  fun e he y hy => H e (List.mem_append_left _ he) y (List.mem_append_left _ hy)

theorem periodAF_last {h : List HEv} {l : HEv} {s e : ℤ} (hl : h.getLast? = some l) (h1 : s ≤ l.wall)
    (h2 : l.wall < e) : (periodAF h s e).evs.getLast? = some l.ev := by
  obtain ⟨h', rfl⟩ := List.getLast?_eq_some_iff.mp hl
  have : inside (h' ++ [l]) s e = inside h' s e ++ [l] := by
    unfold inside
    rw [List.filter_append, List.filter_singleton]
    simp [h1, h2]
  unfold periodAF
  simp only [this]
  rw [if_neg (by simp)]
  simp

theorem timed_step {u : Unit'} {q m : ℤ} (hT : Tiles u q) (hm : 1 ≤ m) {fs : FrameSet} {h : List HEv}
    {c : Ctx} {t : Tick} (hz : GridKept u q (h ++ [⟨c, t, fs.indicators⟩])) (hB : Built u q m fs (timedAF u q h))
    (hs : Sorted (h ++ [⟨c, t, fs.indicators⟩])) :
    (∀ fs', fs.onNewTick c t = .ok fs' → Built u q m fs' (timedAF u q (h ++ [⟨c, t, fs.indicators⟩]))) ∧
    fs.onNewTick c t ≠ .error .diverge := by
  unfold FrameSet.onNewTick
  rw [hB.fields.1, if_neg hT.ne_tick]
  rcases hl : h.getLast? with _ | l
  · have : h = [] := by simpa using hl
    subst this
    have hB0 : Built u q m fs [] := hB
    have hc := (hB0.rep hm).current_none
    simp only [FrameSet.overTimed, hc, bind, Except.bind, if_true]
    have := createTimed_first hT hm (hz ⟨c, t, fs.indicators⟩ (by simp) ⟨c, t, fs.indicators⟩ (by simp) _
      (lt_add_one (gidx u q t.dt.wall)) le_rfl) hB0 (t := t) rfl
    refine ⟨?_, this.2⟩
    intro fs' hf
    have := this.1 fs' hf
    obtain ⟨g1, g2⟩ := gidx_spec hT t.dt.wall
    have e : timedAF u q [⟨c, t, fs.indicators⟩] = [⟨grid u q (gidx u q t.dt.wall),
        some (grid u q (gidx u q t.dt.wall + 1)), [⟨t, c.marketOpen, fs.indicators⟩]⟩] := by
      unfold timedAF
      simp only [List.head?_cons, List.getLast?_singleton, sub_self, zero_add, Int.toNat_one,
        List.range_one, List.map_cons, List.map_nil, Nat.cast_zero, add_zero]
      congr 1
      exact periodAF_snoc_new (h := []) g1 g2 (by simp)
    simpa [e] using this
  · obtain ⟨B, e1, e2⟩ := timedAF_snoc hT hs hl
    rw [e1] at hB
    obtain ⟨f, hc, hg, hco⟩ := (hB.rep hm).current (by rw [hB.fields.2.2]; exact hm)
    obtain ⟨gl1, gl2⟩ := gidx_spec hT l.wall
    have hstop : f.periodEnd = some (grid u q (gidx u q l.wall + 1)) := by rw [hco.stop]; rfl
    rw [e2]
    simp only [FrameSet.overTimed, hc, hstop, bind, Except.bind, decide_eq_true_eq]
    by_cases hlt : t.dt.wall < grid u q (gidx u q l.wall + 1)
    · rw [if_neg (not_le.mpr hlt), if_pos (show HEv.wall ⟨c, t, fs.indicators⟩ < _ from hlt)]
      constructor
      · intro fs' hf
        exact Built.add c t hB hf
      · unfold FrameSet.addToLast
        rw [hc]
        exact nd_bind upsert_nd fun _ => by simp
    · rw [if_pos (not_lt.mp hlt), if_neg (show ¬ HEv.wall ⟨c, t, fs.indicators⟩ < _ from hlt)]
      have hk : gidx u q l.wall < gidx u q t.dt.wall := by
        by_contra hk
        obtain ⟨gx1, gx2⟩ := gidx_spec hT t.dt.wall
        have : grid u q (gidx u q t.dt.wall + 1) ≤ grid u q (gidx u q l.wall + 1) :=
          (grid_strictMono hT).monotone (by omega)
        omega
      obtain ⟨d, hd⟩ : ∃ d : ℕ, gidx u q t.dt.wall = gidx u q l.wall + 1 + d :=
        ⟨(gidx u q t.dt.wall - gidx u q l.wall - 1).toNat, by omega⟩
      obtain ⟨g1, g2⟩ := createTimed_grid hT hm (k := gidx u q l.wall + 1) (c := c) (d := d)
        (fun j h1 h2 => hz ⟨c, t, fs.indicators⟩ (by simp) l
          (List.mem_append_left _ (List.mem_of_getLast? hl)) j (by omega) (by
            show j ≤ gidx u q t.dt.wall + 1
            omega)) hB rfl
        (periodAF_last hl gl1 gl2) hd
      refine ⟨?_, g2⟩
      intro fs' hf
      have := g1 fs' hf
      rw [show HEv.wall ⟨c, t, fs.indicators⟩ = t.dt.wall from rfl, hd,
        show (gidx u q l.wall + 1 + (d : ℤ) - gidx u q l.wall - 1).toNat = d by omega]
      exact this

/-- Main refinement: the frame set is the grouping of its history. -/
theorem feeds_timed {u : Unit'} {q m : ℤ} (hT : Tiles u q) (hm : 1 ≤ m) {fs : FrameSet} {h : List HEv}
    (hF : Feeds u q m fs h) (hs : Sorted h) (hz : GridKept u q h) : Built u q m fs (timedAF u q h) := by
  induction hF with
  | new => exact Built.new
  | ind i _ ih => exact Built.ind i (ih hs hz)
  | tick c t _ hok ih =>
    have hB := ih (List.pairwise_append.mp hs).1 hz.mono
    exact (timed_step hT hm hz hB hs).1 _ hok

end Estrade
