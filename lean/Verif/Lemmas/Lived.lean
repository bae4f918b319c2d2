import Verif.Lemmas.Feed
import Verif.Lemmas.Timed
import Verif.Lemmas.Running

/-!
# Frame sets that went through exceptions

`Lived u q m fs h`: like `Feeds`, but a tick may raise and the program goes on with the state left behind.
-/

set_option autoImplicit false
set_option linter.unusedSectionVars false

namespace Estrade

variable [Arith]

/-- Life of one frame set, exceptions included: every tick delivered is in `h`. -/
inductive Lived (u : Unit') (q m : ℤ) : FrameSet → List HEv → Prop
  | new : Lived u q m ⟨u, q, m, [], [], []⟩ []
  | ind {fs h} (i : Indicator) : Lived u q m fs h → Lived u q m (fs.addIndicator i).1 h
  | tick {fs h} (c : Ctx) (t : Tick) : Lived u q m fs h → Lived u q m (fs.feed c t).1 (h ++ [⟨c, t, fs.indicators⟩])

theorem Feeds.lived {u : Unit'} {q m : ℤ} {fs : FrameSet} {h : List HEv} (hF : Feeds u q m fs h) : Lived u q m fs h := by
  induction hF with
  | new => exact .new
  | ind i _ ih => exact .ind i ih
  | tick c t _ hok ih =>
    have := Lived.tick c t ih
    rw [feed_ok hok] at this
    exact this

theorem feedOne_inds (heap : List Frame) (id : ℕ) (t : Tick) (mo : Bool) (f : Frame) (p : String × Indicator) :
    (feedOne heap id t mo f p).1 = { f with inds := (feedOne heap id t mo f p).1.inds } := by
  unfold feedOne
  split
  · split <;> rfl
  · split <;> rfl

theorem feedInds_inds (heap : List Frame) (id : ℕ) (t : Tick) (mo : Bool) (inds : Dict Indicator) (f : Frame) :
    (feedInds heap id t mo inds f).1 = { f with inds := (feedInds heap id t mo inds f).1.inds } := by
  induction inds generalizing f with
  | nil => rfl
  | cons p rest ih =>
    unfold feedInds
    have h1 := feedOne_inds heap id t mo f p
    rcases hr : feedOne heap id t mo f p with ⟨f', e | e⟩
    · rw [hr] at h1
      simp only at h1 ⊢
      rw [ih f', h1]
    · rw [hr] at h1
      exact h1

/-- Creating a frame either raises before anything changed or, with a memory limit of at least one frame, succeeds. -/
theorem feedCreate_cases {fs : FrameSet} (hm : 1 ≤ fs.maxFrames) (c : Ctx) (t : Tick) (ps : ℤ) (pe : Option ℤ) :
    (∃ e, fs.feedCreate c t ps pe = (fs, some e)) ∨
    (∃ fs', fs.createFrame c t ps pe = .ok fs' ∧ fs.feedCreate c t ps pe = (fs', none)) := by
  rcases hu : upsert fs.heap fs.heap.length t c.marketOpen fs.indicators (Frame.fresh t ps pe fs.frames.getLast?)
    with e | f
  · left
    exact ⟨e, by unfold FrameSet.feedCreate; simp only [hu]⟩
  · right
    obtain ⟨fs', h⟩ := createFrame_ok hm hu
    have := feedCreate_agrees fs c t ps pe
    rw [h] at this
    exact ⟨fs', h, this⟩

/-- Consecutive periods of the timeframe, not before the frame of some tick of the history. -/
def Chain (u : Unit') (q : ℤ) (h : List HEv) (A : List AF) : Prop :=
  ∃ k0 : ℤ, (A ≠ [] → ∃ x ∈ h, gidx u q x.wall ≤ k0) ∧ ∀ (i : ℕ) (a : AF), A[i]? = some a → a.start = grid u q (k0 + i) ∧ a.stop = some (grid u q (k0 + i + 1))

/-- What survives exceptions: the structure, and that frames hold delivered ticks only. -/
structure LInv (u : Unit') (q m : ℤ) (fs : FrameSet) (h : List HEv) (A : List AF) : Prop where
  unit : fs.unit = u
  qty : fs.qty = q
  max : fs.maxFrames = m
  rep : Rep fs A
  ticks : ∀ a ∈ A, (a.evs.map Ev.tick).Sublist (h.map HEv.tick)
  chain : Tiles u q → GridKept u q h → Chain u q h A

theorem LInv.longer {u : Unit'} {q m : ℤ} {fs : FrameSet} {h : List HEv} {A : List AF} (H : LInv u q m fs h A) (x : HEv) :
    LInv u q m fs (h ++ [x]) A :=
  ⟨H.unit, H.qty, H.max, H.rep, fun a ha => (H.ticks a ha).trans (by rw [List.map_append]; exact List.sublist_append_left _ _),
    fun hT hz => by
      obtain ⟨k0, h1, h2⟩ := H.chain hT hz.mono
      refine ⟨k0, fun hA => ?_, h2⟩
      obtain ⟨y, hy, h3⟩ := h1 hA
      exact ⟨y, by simp [hy], h3⟩⟩

/-- One frame appended. -/
theorem LInv.create {u : Unit'} {q m : ℤ} (hm : 1 ≤ m) {fs fs' : FrameSet} {h : List HEv} {A : List AF}
    (H : LInv u q m fs h A) {c : Ctx} {t : Tick} {ps : ℤ} {pe : Option ℤ} (hok : fs.createFrame c t ps pe = .ok fs')
    (ht : t ∈ h.map HEv.tick)
    (hch : Tiles u q → GridKept u q h → ∃ k, (∃ x ∈ h, gidx u q x.wall ≤ k) ∧ ps = grid u q k ∧ pe = some (grid u q (k + 1)) ∧
      ∀ B a, A = B ++ [a] → a.stop = some (grid u q k)) :
    LInv u q m fs' h (A ++ [⟨ps, pe, [⟨t, c.marketOpen, fs.indicators⟩]⟩]) := by
  obtain ⟨f, -, -, hf, hR⟩ := createFrame_inv H.rep (by rw [H.max]; exact hm) hok
  refine ⟨by rw [hf]; exact H.unit, by rw [hf]; exact H.qty, by rw [hf]; exact H.max, hR, ?_, ?_⟩
  · intro a ha
    rcases List.mem_append.mp ha with ha | ha
    · exact H.ticks a ha
    · rw [List.mem_singleton.mp ha]
      simpa using ht
  · intro hT hz
    obtain ⟨k, h0, h1, h2, h3⟩ := hch hT hz
    obtain ⟨k0, hx0, hk⟩ := H.chain hT hz
    rcases List.eq_nil_or_concat A with rfl | ⟨B, a, rfl⟩
    · refine ⟨k, fun _ => h0, ?_⟩
      intro i x hx
      rw [List.nil_append] at hx
      rcases i with _ | i
      · simp only [List.getElem?_cons_zero, Option.some.injEq] at hx
        subst hx
        simp only [Nat.cast_zero, add_zero]
        exact ⟨h1, h2⟩
      · simp at hx
    · rw [List.concat_eq_append] at hk h3 hx0 ⊢
      refine ⟨k0, fun _ => hx0 (by simp), ?_⟩
      intro i x hx
      rcases lt_or_ge i (B ++ [a]).length with hlt | hge
      · rw [List.getElem?_append_left hlt] at hx
        exact hk i x hx
      · have hi : i = (B ++ [a]).length := by
          by_contra hne
          rw [List.getElem?_eq_none (by simp at hge hne ⊢; omega)] at hx
          cases hx
        subst hi
        rw [List.getElem?_append_right le_rfl] at hx
        simp only [Nat.sub_self, List.getElem?_cons_zero, Option.some.injEq] at hx
        subst hx
        have h4 := (hk B.length a (by simp)).2
        rw [h3 B a rfl] at h4
        injection h4 with h4
        have h5 := (grid_strictMono hT).injective h4
        have h6 : k0 + ((B ++ [a]).length : ℤ) = k := by
          rw [h5]; simp only [List.length_append, List.length_cons, List.length_nil]; push_cast; ring
        rw [h6]
        exact ⟨h1, h2⟩

theorem LInv.last_tick {u : Unit'} {q m : ℤ} {fs : FrameSet} {h : List HEv} {B : List AF} {a : AF}
    (H : LInv u q m fs h (B ++ [a])) {f : Frame} (hco : Core a f) : f.last ∈ h.map HEv.tick :=
  (H.ticks a (by simp)).subset (List.mem_of_getLast? hco.sum.last)

/-- The gap filling loop, up to its end or an exception. -/
theorem LInv.fill {u : Unit'} {q m : ℤ} (hm : 1 ≤ m) (c : Ctx) (ps : ℤ) (n : ℕ) : ∀ {fs : FrameSet} {h : List HEv} {A : List AF},
    LInv u q m fs h A → (∃ e ∈ h, e.ctx = c ∧ (Tiles u q → ps ≤ grid u q (gidx u q e.wall))) →
    ∃ F, LInv u q m (feedFill c ps n fs).1 h (A ++ F) ∧ (feedFill c ps n fs).1.indicators = fs.indicators ∧
      (∀ x ∈ F, ∃ B a e, A = B ++ [a] ∧ a.evs.getLast? = some e ∧ x.evs.map Ev.tick = [e.tick]) ∧
      ((feedFill c ps n fs).2 = none → ∀ B a, A ++ F = B ++ [a] → ∃ pe, a.stop = some pe ∧ ps ≤ pe) ∧
      (F ≠ [] → ∀ B a, A ++ F = B ++ [a] → ∃ s, a.start = s ∧ s < ps) ∧
      (∀ B a pe, A = B ++ [a] → a.stop = some pe → ps ≤ pe → F = []) ∧
      (∀ i, i < fs.heap.length → ((feedFill c ps n fs).1.heap[i]?).map Frame.bare = (fs.heap[i]?).map Frame.bare) := by
  induction n with
  | zero =>
    intro fs h A H _
    refine ⟨[], ?_⟩
    rw [List.append_nil]
    have hmf : 1 ≤ fs.maxFrames := by rw [H.max]; exact hm
    rcases List.eq_nil_or_concat A with rfl | ⟨B, a, rfl⟩
    · have : feedFill c ps 0 fs = (fs, none) := by unfold feedFill; rw [H.rep.current_none]
      rw [this]
      exact ⟨H, rfl, by simp, by simp, by simp, by simp, fun _ _ => rfl⟩
    · rw [List.concat_eq_append] at H ⊢
      obtain ⟨f, hc, -, hco⟩ := H.rep.current hmf
      have hs : (feedFill c ps 0 fs).1 = fs ∧ ((feedFill c ps 0 fs).2 = none → ∃ pe, a.stop = some pe ∧ ps ≤ pe) := by
        unfold feedFill
        rw [hc]
        simp only [hco.stop]
        rcases a.stop with _ | pe
        · exact ⟨rfl, by simp⟩
        · simp only
          split_ifs with hlt
          · exact ⟨rfl, by simp⟩
          · exact ⟨rfl, fun _ => ⟨pe, rfl, not_lt.mp hlt⟩⟩
      rw [hs.1]
      refine ⟨H, rfl, by simp, ?_, by simp, by simp, fun _ _ => rfl⟩
      intro hn B' a' he
      have := List.append_inj_right' he (by simp)
      simp only [List.cons.injEq, and_true] at this
      subst this
      exact hs.2 hn
  | succ n ih =>
    intro fs h A H hz
    have hmf : 1 ≤ fs.maxFrames := by rw [H.max]; exact hm
    rcases List.eq_nil_or_concat A with rfl | ⟨B, a, rfl⟩
    · have : feedFill c ps (n + 1) fs = (fs, none) := by unfold feedFill; rw [H.rep.current_none]
      rw [this]
      exact ⟨[], H, rfl, by simp, by simp, by simp, by simp, fun _ _ => rfl⟩
    · rw [List.concat_eq_append] at H ⊢
      obtain ⟨f, hc, -, hco⟩ := H.rep.current hmf
      have hlast : ∀ B' a', (B ++ [a]) ++ [] = B' ++ [a'] → a' = a := by
        intro B' a' he
        rw [List.append_nil] at he
        have := List.append_inj_right' he (by simp)
        simp only [List.cons.injEq, and_true] at this
        exact this.symm
      unfold feedFill
      rw [hc]
      simp only [hco.stop]
      rcases hst : a.stop with _ | pe
      · refine ⟨[], ?_⟩
        rw [List.append_nil]
        exact ⟨H, rfl, by simp, by simp, by simp, by simp, fun _ _ => rfl⟩
      · simp only
        split_ifs with hlt
        · rcases feedCreate_cases hmf c f.last pe (some (frameEnd c.zone fs.unit fs.qty pe)) with ⟨e, hr⟩ | ⟨fs', hok, hr⟩
          · rw [hr]
            refine ⟨[], ?_⟩
            rw [List.append_nil]
            exact ⟨H, rfl, by simp, by simp, by simp, by simp, fun _ _ => rfl⟩
          · rw [hr]
            simp only
            have H' := H.create hm hok (H.last_tick hco) (by
              intro hT hzs
              obtain ⟨k0, hx0, hk⟩ := H.chain hT hzs
              obtain ⟨x0, hxm, hx0⟩ := hx0 (by simp)
              have h1 := (hk B.length a (by simp)).2
              rw [hst] at h1
              injection h1 with h1
              refine ⟨k0 + B.length + 1, ⟨x0, hxm, by omega⟩, h1, ?_, ?_⟩
              · rw [H.unit, H.qty, h1]
                obtain ⟨e, he, rfl, hps⟩ := hz
                rw [frameEnd_grid_kept hT]
                have hlt2 : grid u q (k0 + B.length + 1) < grid u q (gidx u q e.wall) := by
                  rw [← h1]; exact hlt.trans_le (hps hT)
                have := (grid_strictMono hT).lt_iff_lt.mp hlt2
                exact hzs e he x0 hxm _ (by omega) (by omega)
              · intro B' a' he
                have := List.append_inj_right' he (by simp)
                simp only [List.cons.injEq, and_true] at this
                subst this
                rw [hst, h1])
            obtain ⟨F, g1, g2, g3, g4, g5, g6, g7⟩ := ih H' hz
            have hx : ∃ e, a.evs.getLast? = some e ∧ e.tick = f.last := by
              have := hco.sum.last
              rw [List.getLast?_map] at this
              exact Option.map_eq_some_iff.mp this
            obtain ⟨e0, he0, he0'⟩ := hx
            refine ⟨⟨pe, some (frameEnd c.zone fs.unit fs.qty pe), [⟨f.last, c.marketOpen, fs.indicators⟩]⟩ :: F,
              ?_, ?_, ?_, ?_, ?_, ?_, ?_⟩
            · rw [List.append_cons]; exact g1
            · rw [g2, createFrame_fields hok]
            · intro x hx
              refine ⟨B, a, e0, rfl, he0, ?_⟩
              rcases List.mem_cons.mp hx with rfl | hx
              · simp [he0']
              · obtain ⟨B', a', e', h1, h2, h3⟩ := g3 x hx
                have := List.append_inj_right' h1 (by simp)
                simp only [List.cons.injEq, and_true] at this
                subst this
                simp only [List.getLast?_singleton, Option.some.injEq] at h2
                subst h2
                rw [h3, he0']
            · intro hn B' a' he
              exact g4 hn B' a' (by rw [← List.append_cons]; exact he)
            · intro _ B' a' he
              rcases F with _ | ⟨y, F⟩
              · have := List.append_inj_right' he (by simp)
                simp only [List.cons.injEq, and_true] at this
                subst this
                exact ⟨_, rfl, hlt⟩
              · exact g5 (by simp) B' a' (by rw [← List.append_cons]; exact he)
            · intro B' a' pe' he h1 h2
              have := List.append_inj_right' he (by simp)
              simp only [List.cons.injEq, and_true] at this
              subst this
              rw [hst] at h1
              injection h1 with h1
              omega
            · intro i hi
              obtain ⟨x, -, hb, -, -⟩ := createFrame_inv H.rep hmf hok
              have hl : fs'.heap.length = fs.heap.length + 1 := by
                rw [H'.rep.len, H.rep.len, List.length_append, List.length_cons, List.length_nil]
              rw [g7 i (by omega), hb, List.getElem?_append_left hi]
        · refine ⟨[], ?_⟩
          rw [List.append_nil]
          refine ⟨H, rfl, by simp, ?_, by simp, by simp, fun _ _ => rfl⟩
          intro _ B' a' he
          have := hlast B' a' (by rw [List.append_nil]; exact he)
          subst this
          exact ⟨pe, hst, not_lt.mp hlt⟩

/-- Outcomes of one tick on the abstract frames. -/
inductive Outcome (c : Ctx) (t : Tick) (reg : Dict Indicator) (A : List AF) : List AF → Prop
  /-- the tick is in the current frame -/
  | last {B a} (h : A = B ++ [a]) : Outcome c t reg A (B ++ [{ a with evs := a.evs ++ [⟨t, c.marketOpen, reg⟩] }])
  /-- the tick is in a new frame, after some that repeat the last tick -/
  | start (F : List AF) (ps : ℤ) (pe : Option ℤ)
      (hF : ∀ x ∈ F, ∃ B a e, A = B ++ [a] ∧ a.evs.getLast? = some e ∧ x.evs.map Ev.tick = [e.tick]) :
      Outcome c t reg A (A ++ F ++ [⟨ps, pe, [⟨t, c.marketOpen, reg⟩]⟩])
  /-- the tick is lost, some frames may have been added that repeat the last tick -/
  | lost (F : List AF)
      (hF : ∀ x ∈ F, ∃ B a e, A = B ++ [a] ∧ a.evs.getLast? = some e ∧ x.evs.map Ev.tick = [e.tick]) :
      Outcome c t reg A (A ++ F)

theorem LInv.feedLast {u : Unit'} {q m : ℤ} (hm : 1 ≤ m) {fs : FrameSet} {h : List HEv} {B : List AF} {a : AF}
    (H : LInv u q m fs h (B ++ [a])) (c : Ctx) (t : Tick) (reg : Dict Indicator) :
    LInv u q m (fs.feedLast c t).1 (h ++ [⟨c, t, reg⟩])
      (B ++ [{ a with evs := a.evs ++ [⟨t, c.marketOpen, fs.indicators⟩] }]) := by
  have hmf : 1 ≤ fs.maxFrames := by rw [H.max]; exact hm
  obtain ⟨f, hc, hg, hco⟩ := H.rep.current hmf
  unfold FrameSet.feedLast
  rw [hc]
  simp only
  refine ⟨H.unit, H.qty, H.max, H.rep.track_last hg hco (feedInds_inds _ _ _ _ _ _) _ _, ?_, ?_⟩
  · intro x hx
    rw [List.map_append]
    rcases List.mem_append.mp hx with hx | hx
    · exact (H.ticks x (by simp [hx])).trans (List.sublist_append_left _ _)
    · rw [List.mem_singleton.mp hx]
      simp only [List.map_append, List.map_cons, List.map_nil]
      exact (H.ticks a (by simp)).append (List.Sublist.refl _)
  · intro hT hz
    obtain ⟨k0, hx0, hk⟩ := H.chain hT hz.mono
    refine ⟨k0, fun _ => ?_, ?_⟩
    · obtain ⟨y, hy, h3⟩ := hx0 (by simp)
      exact ⟨y, by simp [hy], h3⟩
    intro i x hx
    rcases lt_or_ge i B.length with hlt | hge
    · rw [List.getElem?_append_left hlt] at hx
      exact hk i x (by rw [List.getElem?_append_left hlt]; exact hx)
    · have hi : i = B.length := by
        by_contra hne
        rw [List.getElem?_eq_none (by simp; omega)] at hx
        cases hx
      subst hi
      rw [List.getElem?_append_right le_rfl] at hx
      simp only [Nat.sub_self, List.getElem?_cons_zero, Option.some.injEq] at hx
      subst hx
      exact hk B.length a (by simp)

theorem LInv.feed {u : Unit'} {q m : ℤ} (hm : 1 ≤ m) {fs : FrameSet} {h : List HEv} {A : List AF}
    (H : LInv u q m fs h A) (c : Ctx) (t : Tick) :
    ∃ A', LInv u q m (fs.feed c t).1 (h ++ [⟨c, t, fs.indicators⟩]) A' ∧ Outcome c t fs.indicators A A' ∧
      (fs.feed c t).1.indicators = fs.indicators := by
  have hmf : 1 ≤ fs.maxFrames := by rw [H.max]; exact hm
  have hin : (⟨c, t, fs.indicators⟩ : HEv) ∈ h ++ [⟨c, t, fs.indicators⟩] := by simp
  have H1 := H.longer ⟨c, t, fs.indicators⟩
  have hA : ∀ {B a}, A = B ++ [a] → ∃ A', LInv u q m (fs.feedLast c t).1 (h ++ [⟨c, t, fs.indicators⟩]) A' ∧
      Outcome c t fs.indicators A A' ∧ (fs.feedLast c t).1.indicators = fs.indicators := by
    intro B a hA
    subst hA
    refine ⟨_, H.feedLast hm c t _, Outcome.last rfl, ?_⟩
    unfold FrameSet.feedLast
    split <;> rfl
  unfold FrameSet.feed
  split_ifs with h1 h2
  · rcases feedCreate_cases hmf c t t.dt.wall none with ⟨e, hr⟩ | ⟨fs', hok, hr⟩
    · rw [hr]
      exact ⟨A, H1, by simpa using Outcome.lost (c := c) (t := t) (reg := fs.indicators) (A := A) [] (by simp), rfl⟩
    · rw [hr]
      refine ⟨_, H1.create hm hok (List.mem_map_of_mem hin) ?_, by simpa using Outcome.start [] t.dt.wall none (by simp), ?_⟩
      · intro hT; exact absurd (H.unit ▸ h1) hT.ne_tick
      · rw [createFrame_fields hok]
  · rcases List.eq_nil_or_concat A with rfl | ⟨B, a, rfl⟩
    · exfalso; apply h2
      unfold FrameSet.overTick
      rw [H.rep.current_none]
    · exact hA (List.concat_eq_append ..)
  · rcases hov : fs.overTimed t with e | over
    · exact ⟨A, H1, by simpa using Outcome.lost (c := c) (t := t) (reg := fs.indicators) (A := A) [] (by simp), rfl⟩
    · simp only
      split_ifs with h3
      · unfold FrameSet.feedTimed
        rcases hps : frameStart fs.unit fs.qty t.dt.wall with e | ps
        · exact ⟨A, H1, by simpa using Outcome.lost (c := c) (t := t) (reg := fs.indicators) (A := A) [] (by simp), rfl⟩
        · simp only
          obtain ⟨F, g1, g2, g3, g4, g5, -, -⟩ := H1.fill hm c ps (fillFuel fs ps) ⟨_, hin, rfl, fun hT => by
            rw [H.unit, H.qty] at hps
            exact (frameStart_ok hT hps).le⟩
          rcases hr : feedFill c ps (fillFuel fs ps) fs with ⟨fs1, e | e⟩
          · rw [hr] at g1 g2 g4
            simp only at g1 g2 g4 ⊢
            have hmf1 : 1 ≤ fs1.maxFrames := by rw [g1.max]; exact hm
            rcases feedCreate_cases hmf1 c t ps (some (frameEnd c.zone fs.unit fs.qty ps)) with ⟨e, hr'⟩ | ⟨fs', hok, hr'⟩
            · rw [hr']
              exact ⟨A ++ F, g1, Outcome.lost F g3, g2⟩
            · rw [hr']
              refine ⟨_, g1.create hm hok (List.mem_map_of_mem hin) ?_, ?_, ?_⟩
              · intro hT hz
                obtain ⟨k0, -, hk⟩ := g1.chain hT hz
                rw [H.unit, H.qty] at hps ⊢
                have hsg := frameStart_ok hT hps
                refine ⟨gidx u q t.dt.wall, ⟨_, hin, le_rfl⟩, hsg, ?_, ?_⟩
                · have hk := hz _ hin _ hin (gidx u q t.dt.wall + 1) (lt_add_one (gidx u q t.dt.wall)) le_rfl
                  rw [hsg, frameEnd_grid_kept hT hk]
                · intro B a he
                  obtain ⟨pe, hp1, hp2⟩ := g4 trivial B a he
                  have hka := hk B.length a (by rw [he]; simp)
                  rw [hp1] at hka
                  have hpe : pe = grid u q (k0 + B.length + 1) := Option.some.inj hka.2
                  rw [hp1]
                  congr 1
                  apply le_antisymm _ (by rw [← hsg]; exact hp2)
                  -- the end of the last frame is not after the tick
                  obtain ⟨w1, w2⟩ := gidx_spec hT t.dt.wall
                  rw [hpe]
                  apply (grid_strictMono hT).monotone
                  by_contra hcon
                  push Not at hcon
                  rcases F with _ | ⟨y, F'⟩
                  · rw [List.append_nil] at he
                    subst he
                    obtain ⟨f, hc, -, hco⟩ := H.rep.current hmf
                    unfold FrameSet.overTimed at hov
                    rw [hc] at hov
                    simp only [hco.stop, hp1, Except.ok.injEq] at hov
                    rw [h3, decide_eq_true_eq] at hov
                    have := (grid_strictMono hT).monotone (show gidx u q t.dt.wall + 1 ≤ k0 + B.length + 1 by omega)
                    omega
                  · obtain ⟨s, hs1, hs2⟩ := g5 (by simp) B a he
                    rw [hka.1] at hs1
                    have h5 : grid u q (k0 + B.length) < grid u q (gidx u q t.dt.wall) := by rw [hs1, ← hsg]; exact hs2
                    have := (grid_strictMono hT).lt_iff_lt.mp h5
                    omega
              · rw [g2]; exact Outcome.start F _ _ g3
              · rw [createFrame_fields hok]; exact g2
          · rw [hr] at g1 g2
            exact ⟨A ++ F, g1, Outcome.lost F g3, g2⟩
      · rcases List.eq_nil_or_concat A with rfl | ⟨B, a, rfl⟩
        · exfalso
          unfold FrameSet.overTimed at hov
          rw [H.rep.current_none] at hov
          simp only [Except.ok.injEq] at hov
          exact h3 hov.symm
        · exact hA (List.concat_eq_append ..)

theorem lived_inv {u : Unit'} {q m : ℤ} (hm : 1 ≤ m) {fs : FrameSet} {h : List HEv} (hL : Lived u q m fs h) :
    ∃ A, LInv u q m fs h A := by
  induction hL with
  | new => exact ⟨[], rfl, rfl, rfl, ⟨rfl, by simp, by simp, by simp, by simp⟩, by simp, fun _ _ => ⟨0, by simp, by simp⟩⟩
  | ind i _ ih =>
    obtain ⟨A, H⟩ := ih
    rw [addIndicator_fields]
    exact ⟨A, H.unit, H.qty, H.max, H.rep.of_indicators _, H.ticks, H.chain⟩
  | tick c t _ ih =>
    obtain ⟨A, H⟩ := ih
    obtain ⟨A', H', -⟩ := H.feed hm c t
    exact ⟨A', H'⟩

end Estrade
