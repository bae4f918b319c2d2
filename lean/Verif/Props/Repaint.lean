import Verif.Props.Indicators

/-!
# C107: what later ticks do to the values of indicators
-/

set_option linter.style.haveILetI false
set_option linter.unusedSectionVars false
set_option autoImplicit false

namespace Estrade
section
variable [Arith]

/-- Spec: the frame set after more ticks and registrations of indicators. -/
inductive Spec.Onward (fs : FrameSet) : FrameSet → Prop
  | now : Spec.Onward fs fs
  | ind {gs} (i : Indicator) : Spec.Onward fs gs → Spec.Onward fs (gs.addIndicator i).1
  | tick {gs gs'} (c : Ctx) (t : Tick) : Spec.Onward fs gs → gs.onNewTick c t = .ok gs' → Spec.Onward fs gs'

/-- Spec: pivot, supports and resistances. -/
def Spec.levels (heap : List Frame) (v : IndVal) : List (Option ℚ) :=
  [pivotOf heap v, support1 heap v, support2 heap v, support3 heap v, resistance1 heap v, resistance2 heap v, resistance3 heap v]

/-- The naive statement: nothing that can be read from a value of a closed frame in memory changes as long as the frame is in memory. -/
def Spec.NoRepaint : Prop :=
  ∀ (u : Unit') (q m : ℤ), 1 ≤ m → ∀ (fs fs' : FrameSet) (h : List HEv), Feeds u q m fs h → Spec.Onward fs fs' →
  ∀ (i : ℕ) (f f' : Frame), fs.heap[i]? = some f → i + 1 < fs.heap.length → fs'.heap[i]? = some f' → i ∈ fs'.frames →
  ∀ (r : String) (v : IndVal), f.get r = some v → ∃ v', f'.get r = some v' ∧ v'.rsi = v.rsi ∧
    (∀ p, smaGet fs'.heap v' p = smaGet fs.heap v p) ∧ Spec.levels fs'.heap v' = Spec.levels fs.heap v

/-- What a tick leaves of the values of a frame, the current one included. -/
def FrameGrown (f f' : Frame) : Prop :=
  ∀ r v, f.get r = some v → ∃ v', f'.get r = some v' ∧ v'.ind = v.ind ∧ v'.first = v.first

theorem FrameGrown.refl (f : Frame) : FrameGrown f f := fun _ v h => ⟨v, h, rfl, rfl⟩

theorem FrameGrown.of_bare {f f' : Frame} (h : f'.bare = f.bare) : FrameGrown f f' :=
  fun r v hv => ⟨v, by rw [get_of_bare h r]; exact hv, rfl, rfl⟩

theorem FrameGrown.trans {f g h : Frame} (h1 : FrameGrown f g) (h2 : FrameGrown g h) : FrameGrown f h := by
  intro r v hv
  obtain ⟨v1, a, b, c⟩ := h1 r v hv
  obtain ⟨v2, d, e, k⟩ := h2 r v1 a
  exact ⟨v2, d, e.trans b, k.trans c⟩

theorem track_kept (v : IndVal) (t : Tick) (mo : Bool) : (v.track t mo).ind = v.ind ∧ (v.track t mo).first = v.first := by
  rw [IndVal.track_eq]
  split_ifs <;> exact ⟨rfl, rfl⟩

theorem upsert_frameGrown {heap : List Frame} {id : ℕ} {t : Tick} {mo : Bool} {reg : Dict Indicator} (hr : RegOk reg) {f f' : Frame}
    (h : upsert heap id t mo reg (f.track t) = .ok f') : FrameGrown f f' := by
  intro r v hv
  have hv' : (f.track t).get r = some v := by
    rw [track_eq]
    exact hv
  obtain ⟨h1, h2⟩ := hr.upsert_get r h
  rcases hg : reg.get? r with _ | ind
  · exact ⟨v, by rw [h1 hg]; exact hv', rfl, rfl⟩
  · have := h2 ind hg
    rw [hv'] at this
    obtain ⟨v', a, b⟩ := this
    have hf := IndVal.onNewTick_fields a
    obtain ⟨k1, k2⟩ := track_kept v t mo
    exact ⟨v', b, by rw [hf]; exact k1, by rw [hf]; exact k2⟩

/-- Frames of `fs` in `fs'`. -/
structure SetGrown (fs fs' : FrameSet) : Prop where
  len : fs.heap.length ≤ fs'.heap.length
  all : ∀ (i : ℕ) (f : Frame), fs.heap[i]? = some f → ∃ f', fs'.heap[i]? = some f' ∧ FrameGrown f f'

theorem SetGrown.refl (fs : FrameSet) : SetGrown fs fs := ⟨le_rfl, fun _ f h => ⟨f, h, .refl f⟩⟩

theorem SetGrown.trans {a b c : FrameSet} (h1 : SetGrown a b) (h2 : SetGrown b c) : SetGrown a c :=
  ⟨h1.len.trans h2.len, fun i f hf => by
    obtain ⟨g, hg, k⟩ := h1.all i f hf
    obtain ⟨g', hg', k'⟩ := h2.all i g hg
    exact ⟨g', hg', k.trans k'⟩⟩

theorem SetGrown.of_bare {fs fs' : FrameSet} (hl : fs.heap.length ≤ fs'.heap.length)
    (h : ∀ i, i < fs.heap.length → (fs'.heap[i]?).map Frame.bare = (fs.heap[i]?).map Frame.bare) : SetGrown fs fs' := by
  refine ⟨hl, fun i f hf => ?_⟩
  have := h i (List.getElem?_eq_some_iff.mp hf).1
  rw [hf] at this
  obtain ⟨f', hf', hb⟩ := Option.map_eq_some_iff.mp this
  exact ⟨f', hf', .of_bare hb⟩

theorem create_setGrown {u : Unit'} {q m : ℤ} (hm : 1 ≤ m) {fs fs' : FrameSet} {A : List AF} {c : Ctx} {t : Tick} {ps : ℤ} {pe : Option ℤ}
    (hB : Built u q m fs A) (h : fs.createFrame c t ps pe = .ok fs') : SetGrown fs fs' := by
  have hB1 := Built.create _ _ _ _ hB h
  refine .of_bare ?_ (fun i hi => built_step_bare hm hB h i hi)
  rw [(hB1.rep hm).len, (hB.rep hm).len]
  simp

theorem add_setGrown {u : Unit'} {q m : ℤ} (hm : 1 ≤ m) {fs fs' : FrameSet} {A : List AF} {c : Ctx} {t : Tick} (hB : Built u q m fs A)
    (h : fs.addToLast c t = .ok fs') : SetGrown fs fs' := by
  rcases List.eq_nil_or_concat A with rfl | ⟨B, a, rfl⟩
  · unfold FrameSet.addToLast at h
    rw [(hB.rep hm).current_none] at h
    cases h
    exact .refl _
  · rw [List.concat_eq_append] at hB
    obtain ⟨f, f', hf, -, hu, rfl, -⟩ := addToLast_inv (hB.rep hm) (by rw [hB.fields.2.2]; exact hm) h
    refine ⟨by simp, fun i g hg => ?_⟩
    by_cases hi : B.length = i
    · subst hi
      rw [hf] at hg
      cases hg
      exact ⟨f', by simp only; rw [List.getElem?_set_self (List.getElem?_eq_some_iff.mp hf).1], upsert_frameGrown hB.regOk hu⟩
    · exact ⟨g, by simp only; rw [List.getElem?_set_ne hi]; exact hg, .refl g⟩

theorem tick_setGrown {u : Unit'} {q m : ℤ} (hm : 1 ≤ m) {fs fs' : FrameSet} {h : List HEv} (hF : Feeds u q m fs h) {c : Ctx} {t : Tick}
    (hok : fs.onNewTick c t = .ok fs') : SetGrown fs fs' := by
  obtain ⟨A, hB, -⟩ := feeds_built hm hF
  unfold FrameSet.onNewTick at hok
  split_ifs at hok
  · exact create_setGrown hm hB hok
  · exact add_setGrown hm hB hok
  · simp only [bind, Except.bind] at hok
    split at hok
    · cases hok
    · split_ifs at hok
      · unfold FrameSet.createTimed at hok
        simp only [bind, Except.bind] at hok
        split at hok
        · cases hok
        · split at hok
          · cases hok
          · rename_i fs1 h1
            obtain ⟨-, A1, hB1⟩ := fillLoop_built _ _ _ _ hB h1
            obtain ⟨a, b⟩ := fillLoop_bare hm _ _ _ _ hB h1
            exact (SetGrown.of_bare a b).trans (create_setGrown hm hB1 hok)
      · exact add_setGrown hm hB hok

/-- Later states. -/
theorem Spec.Onward.facts {u : Unit'} {q m : ℤ} (hm : 1 ≤ m) {fs fs' : FrameSet} {h : List HEv} (hF : Feeds u q m fs h)
    (hl : Spec.Onward fs fs') : (∃ h', Feeds u q m fs' h') ∧ SetGrown fs fs' ∧
    ∀ i, i + 1 < fs.heap.length → (fs'.heap[i]?).map Frame.bare = (fs.heap[i]?).map Frame.bare := by
  induction hl with
  | now => exact ⟨⟨h, hF⟩, .refl _, fun _ _ => rfl⟩
  | ind i _ ih =>
    obtain ⟨⟨h', hF'⟩, a, b⟩ := ih
    have he := addIndicator_fields ‹_› i
    refine ⟨⟨h', .ind i hF'⟩, ⟨by rw [he]; exact a.len, fun k f hf => ?_⟩, fun k hk => by rw [he]; exact b k hk⟩
    rw [he]
    exact a.all k f hf
  | tick c t _ hok ih =>
    obtain ⟨⟨h', hF'⟩, a, b⟩ := ih
    obtain ⟨-, k2⟩ := C11_creations_append u q m hm _ _ h' hF' c t hok
    exact ⟨⟨_, .tick c t hF' hok⟩, a.trans (tick_setGrown hm hF' hok), fun i hi => (k2 i (by have := a.len; omega)).trans (b i hi)⟩

/-- `previous` in terms of the ids of frames. -/
theorem previous_iff {u : Unit'} {q m : ℤ} (hm : 1 ≤ m) {fs : FrameSet} {h : List HEv} (hF : Feeds u q m fs h) {i : ℕ} {f : Frame}
    (hf : fs.heap[i]? = some f) {r : String} {v : IndVal} (hv : f.get r = some v) (p : IndVal) :
    v.previous fs.heap = some p ↔ ∃ k g, fs.heap.length - m.toNat ≤ k ∧ k < i ∧ fs.heap[k]? = some g ∧ g.get r = some p ∧
      ∀ (k' : ℕ) (g' : Frame), k < k' → k' < i → fs.heap[k']? = some g' → g'.get r = none := by
  set s := fs.heap.length - m.toNat with hs
  have hview : ∀ j : ℕ, fs.view[j]? = fs.heap[s + j]? := fun j => by
    rw [(C11_memory_keeps_latest u q m hm fs h hF).2.1, List.getElem?_drop]
  by_cases hi : i < s
  · rw [(C41_dropped_frames u q m hm fs h hF i f hf (by omega) r v hv).1]
    constructor
    · intro h; cases h
    · rintro ⟨k, g, a, b, -⟩; omega
  · have hfv : fs.view[i - s]? = some f := by rw [hview, show s + (i - s) = i by omega]; exact hf
    rw [(C41_navigation u q m hm fs h hF (i - s) f hfv r v hv).1 p]
    constructor
    · rintro ⟨k, g, a, b, c, d⟩
      refine ⟨s + k, g, by omega, by omega, by rw [← hview]; exact b, c, fun k' g' x y z => ?_⟩
      exact d (k' - s) g' (by omega) (by omega) (by rw [hview, show s + (k' - s) = k' by omega]; exact z)
    · rintro ⟨k, g, e, a, b, c, d⟩
      refine ⟨k - s, g, by omega, by rw [hview, show s + (k - s) = k by omega]; exact b, c, fun k' g' x y z => ?_⟩
      exact d (s + k') g' (by omega) (by omega) (by rw [← hview]; exact z)

/-- The previous value of a later state: what it was, or none when its frame is not in memory any more. -/
theorem previous_later {u : Unit'} {q m : ℤ} (hm : 1 ≤ m) {fs fs' : FrameSet} {h : List HEv} (hF : Feeds u q m fs h)
    (hl : Spec.Onward fs fs') {i : ℕ} {f f' : Frame} (hf : fs.heap[i]? = some f) (hf' : fs'.heap[i]? = some f') {r : String} {v v' : IndVal}
    (hv : f.get r = some v) (hv' : f'.get r = some v') :
    v'.previous fs'.heap = (v.previous fs.heap).filter (fun p => decide (fs'.heap.length - m.toNat ≤ p.frame)) := by
  obtain ⟨⟨h', hF'⟩, hg, hb⟩ := hl.facts hm hF
  have hlen := hg.len
  have hil : i < fs.heap.length := (List.getElem?_eq_some_iff.mp hf).1
  obtain ⟨A, hB, -⟩ := feeds_built hm hF
  have same : ∀ (k : ℕ) (g : Frame), k < i → fs.heap[k]? = some g → ∃ g', fs'.heap[k]? = some g' ∧ ∀ r, g'.get r = g.get r := by
    intro k g hk hgk
    have := hb k (by omega)
    rw [hgk] at this
    obtain ⟨g', a, b⟩ := Option.map_eq_some_iff.mp this
    exact ⟨g', a, get_of_bare b⟩
  have same' : ∀ (k : ℕ) (g' : Frame), k < i → fs'.heap[k]? = some g' → ∃ g, fs.heap[k]? = some g ∧ ∀ r, g'.get r = g.get r := by
    intro k g' hk hgk
    have hx : fs.heap[k]? = some fs.heap[k] := List.getElem?_eq_getElem (by omega)
    obtain ⟨g1, a, b⟩ := same k _ hk hx
    rw [hgk] at a
    cases a
    exact ⟨_, hx, b⟩
  apply Option.ext
  intro p
  rw [previous_iff hm hF' hf' hv', Option.filter_eq_some_iff, previous_iff hm hF hf hv]
  constructor
  · rintro ⟨k, g', e, a, b, c, d⟩
    obtain ⟨g, x, y⟩ := same' k g' a b
    have hp := (hB.value_core hm x (by rw [← y]; exact c)).1
    refine ⟨⟨k, g, by omega, a, x, by rw [← y]; exact c, fun k' z z1 z2 z3 => ?_⟩, by rw [hp]; simpa using e⟩
    obtain ⟨w, w1, w2⟩ := same k' z z2 z3
    rw [← w2]
    exact d k' w z1 z2 w1
  · rintro ⟨⟨k, g, e, a, b, c, d⟩, hp⟩
    have hk := (hB.value_core hm b c).1
    rw [hk] at hp
    obtain ⟨g', x, y⟩ := same k g a b
    refine ⟨k, g', by simpa using hp, a, x, by rw [y]; exact c, fun k' z z1 z2 z3 => ?_⟩
    obtain ⟨w, w1, w2⟩ := same' k' z z2 z3
    rw [w2]
    exact d k' w z1 z2 w1

theorem levels_congr {heap heap' : List Frame} {v v' : IndVal} (h1 : v'.ind = v.ind) (h2 : v'.first = v.first)
    (h3 : v'.previous heap' = v.previous heap) : Spec.levels heap' v' = Spec.levels heap v := by
  unfold Spec.levels support1 support2 support3 resistance1 resistance2 resistance3 pivotLevel pivotOf pivotClassic pivotOLHC
  simp only [h1, h2, h3]

theorem levels_none {heap : List Frame} {v : IndVal} (h : v.previous heap = none) : Spec.levels heap v = List.replicate 7 none := by
  unfold Spec.levels support1 support2 support3 resistance1 resistance2 resistance3 pivotLevel pivotOf pivotClassic pivotOLHC
  rw [h]
  rcases v.ind.kind <;> rfl

theorem mem_frames {u : Unit'} {q m : ℤ} (hm : 1 ≤ m) {fs : FrameSet} {h : List HEv} (hF : Feeds u q m fs h) {i : ℕ} (hi : i < fs.heap.length) :
    i ∈ fs.frames ↔ fs.heap.length - m.toNat ≤ i := by
  rw [(C11_memory_keeps_latest u q m hm fs h hF).2.2, List.mem_iff_getElem?]
  constructor
  · rintro ⟨n, hn⟩
    rw [List.getElem?_drop, List.getElem?_eq_some_iff] at hn
    obtain ⟨_, hn⟩ := hn
    rw [List.getElem_range] at hn
    omega
  · intro h
    refine ⟨i - (fs.heap.length - m.toNat), ?_⟩
    rw [List.getElem?_drop, List.getElem?_range (by omega)]
    congr 1
    omega

/-- C107: averages (of any number of periods, errors included), RSI and candle ticks of a frame that is not the current one never change, whatever ticks and
registrations follow, in memory or not. -/
theorem C107_values (u : Unit') (q m : ℤ) (hm : 1 ≤ m) (fs fs' : FrameSet) (h : List HEv) (hF : Feeds u q m fs h) (hl : Spec.Onward fs fs')
    (i : ℕ) (f : Frame) (hf : fs.heap[i]? = some f) (hi : i + 1 < fs.heap.length) :
    ∃ f', fs'.heap[i]? = some f' ∧ (∀ r, f'.get r = f.get r) ∧
      ∀ r v, f.get r = some v → ∀ p, smaGet fs'.heap v p = smaGet fs.heap v p := by
  obtain ⟨-, -, hb⟩ := hl.facts hm hF
  have := hb i hi
  rw [hf] at this
  obtain ⟨f', hf', hbare⟩ := Option.map_eq_some_iff.mp this
  refine ⟨f', hf', get_of_bare hbare, fun r v hv p => ?_⟩
  obtain ⟨A, hB, -⟩ := feeds_built hm hF
  have hfr := (hB.value_core hm hf hv).1
  unfold smaGet IndVal.parent extendedCloses
  rw [hfr, hf, hf']
  simp only [last_of_bare hbare]

/-- C107: pivot and levels of any frame, the current one included, are the same from the moment the value exists, as long as the frame of the previous value is
in memory; when it is dropped they are all `None`.  They never become other numbers. -/
theorem C107_levels (u : Unit') (q m : ℤ) (hm : 1 ≤ m) (fs fs' : FrameSet) (h : List HEv) (hF : Feeds u q m fs h) (hl : Spec.Onward fs fs')
    (i : ℕ) (f : Frame) (hf : fs.heap[i]? = some f) (r : String) (v : IndVal) (hv : f.get r = some v) :
    ∃ f' v', fs'.heap[i]? = some f' ∧ f'.get r = some v' ∧ v'.ind = v.ind ∧
      ((∃ p, v.previous fs.heap = some p ∧ p.frame ∈ fs'.frames) → Spec.levels fs'.heap v' = Spec.levels fs.heap v) ∧
      ((∀ p, v.previous fs.heap = some p → p.frame ∉ fs'.frames) → Spec.levels fs'.heap v' = List.replicate 7 none) := by
  obtain ⟨⟨h', hF'⟩, hg, -⟩ := hl.facts hm hF
  obtain ⟨f', hf', hgr⟩ := hg.all i f hf
  obtain ⟨v', hv', hi1, hi2⟩ := hgr r v hv
  have hp := previous_later hm hF hl hf hf' hv hv'
  have hmem : ∀ p, v.previous fs.heap = some p → (p.frame ∈ fs'.frames ↔ fs'.heap.length - m.toNat ≤ p.frame) := by
    intro p hpp
    obtain ⟨k, g, -, a, b, c, -⟩ := (previous_iff hm hF hf hv p).mp hpp
    obtain ⟨A, hB, -⟩ := feeds_built hm hF
    have hk := (hB.value_core hm b c).1
    have := (List.getElem?_eq_some_iff.mp b).1
    have := hg.len
    exact mem_frames hm hF' (by omega)
  refine ⟨f', v', hf', hv', hi1, ?_, ?_⟩
  · rintro ⟨p, hpp, hin⟩
    refine levels_congr hi1 hi2 ?_
    rw [hp, hpp, Option.filter_some, if_pos (by simpa using (hmem p hpp).mp hin)]
  · intro hout
    refine levels_none ?_
    rw [hp]
    rcases hpp : v.previous fs.heap with _ | p
    · rfl
    · rw [Option.filter_some, if_neg (by simpa using fun hx => hout p hpp ((hmem p hpp).mpr hx))]

end

/-! ## Concrete cases -/

open Demo (with1 at' value obs value_some feeds1)

namespace Repaint

def piv : Indicator := ⟨"p", .pivotClassic, false⟩

def sma : Indicator := ⟨"a", .sma 3, false⟩

/-- Three frames. -/
def three : List (Ctx × Tick) := [at' 0 true 10, at' 60 true 20, at' 120 true 40]

end Repaint

open Repaint (piv sma three)

theorem later_of_feedAll [Arith] {fs : FrameSet} (l : List (Ctx × Tick)) : ∀ {gs gs' : FrameSet}, Spec.Onward fs gs → feedAll gs l = .ok gs' →
    Spec.Onward fs gs' := by
  induction l with
  | nil => intro gs gs' h hl; cases hl; exact h
  | cons p l ih =>
    intro gs gs' h hl
    rw [feedAll] at hl
    split at hl
    · cases hl
    · rename_i h1
      exact ih (.tick p.1 p.2 h h1) hl

/-- The naive statement fails: the fourth frame drops the first one from memory, and with it the pivot of the second frame, closed and in memory, which was 10. -/
theorem C107_pivot_false : letI := Arith.exact; ¬ Spec.NoRepaint := by
  letI := Arith.exact
  intro h
  obtain ⟨fs, hs, h1, -, -, -, h5⟩ := feeds1 (u := .minute) (q := 1) (m := 3) (by decide) (ind := piv) (l := three) (by decide +kernel)
  obtain ⟨gs, -, -, -, -, -, h6⟩ := feeds1 (u := .minute) (q := 1) (m := 3) (by decide) (ind := piv) (l := three ++ [at' 180 true 50])
    (by decide +kernel)
  have hl : feedAll fs [at' 180 true 50] = .ok gs := by rw [feedAll_append, h5] at h6; exact h6
  obtain ⟨f, v, hf, hv, hx⟩ := value_some (g := fun v => pivotOf fs.heap v)
    (obs h5 (g := fun fs => (value fs 1 "p").map (fun v => pivotOf fs.heap v)) (x := some (some 10)) (by decide +kernel))
  obtain ⟨f', v', hf', hv', hx'⟩ := value_some (g := fun v => pivotOf gs.heap v)
    (obs h6 (g := fun gs => (value gs 1 "p").map (fun v => pivotOf gs.heap v)) (x := some none) (by decide +kernel))
  obtain ⟨w, a, -, -, d⟩ := h .minute 1 3 (by decide) fs gs hs h1 (later_of_feedAll _ .now hl) 1 f f' hf
    (by rw [obs h5 (g := fun fs => fs.heap.length) (x := 3) (by decide +kernel)]; decide) hf'
    (by rw [obs h6 (g := fun gs => gs.frames) (x := [1, 2, 3]) (by decide +kernel)]; decide) "p" v hv
  rw [hv'] at a
  cases a
  have e : pivotOf gs.heap v' = pivotOf fs.heap v := (List.cons.inj d).1
  rw [hx, hx'] at e
  cases e

/-- C107_values: the average over two frames of the second one, 15, after its frame was dropped from memory too. -/
example : letI := Arith.exact
    ∃ fs gs h, Feeds .minute 1 2 fs h ∧ Spec.Onward fs gs ∧ fs.heap.length = 3 ∧ gs.frames = [3, 4] ∧
      (value fs 1 "a").map (fun v => smaGet fs.heap v 2) = some (.ok (some 15)) ∧
      (value gs 1 "a").map (fun v => smaGet gs.heap v 2) = some (.ok (some 15)) := by
  letI := Arith.exact
  obtain ⟨fs, hs, h1, -, -, -, h5⟩ := feeds1 (u := .minute) (q := 1) (m := 2) (by decide) (ind := sma) (l := three) (by decide +kernel)
  obtain ⟨gs, -, -, -, -, -, h6⟩ := feeds1 (u := .minute) (q := 1) (m := 2) (by decide) (ind := sma)
    (l := three ++ [at' 180 true 50, at' 240 true 60]) (by decide +kernel)
  have hl : feedAll fs [at' 180 true 50, at' 240 true 60] = .ok gs := by rw [feedAll_append, h5] at h6; exact h6
  exact ⟨fs, gs, hs, h1, later_of_feedAll _ .now hl, obs h5 (g := fun fs => fs.heap.length) (by decide +kernel),
    obs h6 (g := fun gs => gs.frames) (by decide +kernel),
    obs h5 (g := fun fs => (value fs 1 "a").map (fun v => smaGet fs.heap v 2)) (by decide +kernel),
    obs h6 (g := fun gs => (value gs 1 "a").map (fun v => smaGet gs.heap v 2)) (by decide +kernel)⟩

/-- C107_levels: the levels of the current frame stay when ticks are added to it and when it is closed (the pivot is 20). -/
example : letI := Arith.exact
    ∃ fs gs h, Feeds .minute 1 3 fs h ∧ Spec.Onward fs gs ∧ fs.heap.length = 3 ∧ gs.frames = [1, 2, 3] ∧
      (value fs 2 "p").map (fun v => Spec.levels fs.heap v) = (value gs 2 "p").map (fun v => Spec.levels gs.heap v) ∧
      (value gs 2 "p").map (fun v => pivotOf gs.heap v) = some (some 20) ∧
      (value fs 2 "p").map (fun v => v.high.value) = some 40 ∧ (value gs 2 "p").map (fun v => v.high.value) = some 70 := by
  letI := Arith.exact
  obtain ⟨fs, hs, h1, -, -, -, h5⟩ := feeds1 (u := .minute) (q := 1) (m := 3) (by decide) (ind := piv) (l := three) (by decide +kernel)
  obtain ⟨gs, -, -, -, -, -, h6⟩ := feeds1 (u := .minute) (q := 1) (m := 3) (by decide) (ind := piv)
    (l := three ++ [at' 130 true 70, at' 180 true 50]) (by decide +kernel)
  have hl : feedAll fs [at' 130 true 70, at' 180 true 50] = .ok gs := by rw [feedAll_append, h5] at h6; exact h6
  refine ⟨fs, gs, hs, h1, later_of_feedAll _ .now hl, obs h5 (g := fun fs => fs.heap.length) (by decide +kernel),
    obs h6 (g := fun gs => gs.frames) (by decide +kernel), ?_,
    obs h6 (g := fun gs => (value gs 2 "p").map (fun v => pivotOf gs.heap v)) (by decide +kernel),
    obs h5 (g := fun fs => (value fs 2 "p").map (fun v => v.high.value)) (by decide +kernel),
    obs h6 (g := fun gs => (value gs 2 "p").map (fun v => v.high.value)) (by decide +kernel)⟩
  rw [obs h5 (g := fun fs => (value fs 2 "p").map (fun v => Spec.levels fs.heap v))
      (x := some [some 20, some 20, some 20, some 20, some 20, some 20, some 20]) (by decide +kernel),
    obs h6 (g := fun gs => (value gs 2 "p").map (fun v => Spec.levels gs.heap v))
      (x := some [some 20, some 20, some 20, some 20, some 20, some 20, some 20]) (by decide +kernel)]

end Estrade
