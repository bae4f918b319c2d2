import Verif.Lemmas.Grouping
import Verif.Demo

/-!
# Small frame set histories for the concrete cases
-/

set_option autoImplicit false
set_option linter.unusedSectionVars false

namespace Estrade

variable [Arith]

theorem onNewTick_indicators {u : Unit'} {q m : ℤ} (hm : 1 ≤ m) {fs fs' : FrameSet} {A : List AF} {c : Ctx} {t : Tick}
    (hB : Built u q m fs A) (h : fs.onNewTick c t = .ok fs') : fs'.indicators = fs.indicators := by
  unfold FrameSet.onNewTick at h
  split_ifs at h
  · rw [createFrame_fields h]
  · rw [addToLast_fields h]
  · simp only [bind, Except.bind] at h
    split at h
    · cases h
    split_ifs at h
    · unfold FrameSet.createTimed at h
      simp only [bind, Except.bind] at h
      split at h
      · cases h
      split at h
      · cases h
      rename_i fs1 h1
      rw [createFrame_fields h]
      exact (fillLoop_groups hm _ _ _ A hB h1).1
    · rw [addToLast_fields h]

theorem feeds_of_feedAll_reg {u : Unit'} {q m : ℤ} (hm : 1 ≤ m) {fs fs' : FrameSet} {h : List HEv}
    {l : List (Ctx × Tick)} (hF : Feeds u q m fs h) (hl : feedAll fs l = .ok fs') :
    ∃ h', Feeds u q m fs' (h ++ h') ∧ h'.map (fun e => (e.ctx, e.tick)) = l ∧
      (∀ e ∈ h', e.reg = fs.indicators) ∧ fs'.indicators = fs.indicators := by
  induction l generalizing fs h with
  | nil => cases hl; exact ⟨[], by simpa using hF, rfl, by simp, rfl⟩
  | cons p rest ih =>
    rw [feedAll] at hl
    split at hl
    · cases hl
    · rename_i fs1 h1
      obtain ⟨A, hB, -⟩ := feeds_groups hm hF
      have hi := onNewTick_indicators hm hB h1
      obtain ⟨h', g1, g2, g3, g4⟩ := ih (Feeds.tick p.1 p.2 hF h1) hl
      refine ⟨⟨p.1, p.2, fs.indicators⟩ :: h', by simpa using g1, by simp [g2], ?_, g4.trans hi⟩
      intro e he
      rcases List.mem_cons.mp he with rfl | he
      · rfl
      · rw [g3 e he, hi]

/-- A new frame set with one indicator. -/
def Demo.with1 (u : Unit') (q m : ℤ) (ind : Indicator) : FrameSet :=
  ((⟨u, q, m, [], [], []⟩ : FrameSet).addIndicator ind).1

/-- A tick of value `x` delivered `s` seconds after the start of the demo day, the market being open or not. -/
def Demo.at' (s : ℤ) (open' : Bool) (x : ℚ) : Ctx × Tick :=
  (⟨Zone.utc, some (open', ordOf Demo.monday)⟩, ⟨⟨Demo.monday + s * secUs, Demo.monday + s * secUs, 0⟩, x, x⟩)

/-- The ticks `l` were delivered to a frame set with the one indicator `ind`. -/
theorem Demo.feeds1 {u : Unit'} {q m : ℤ} (hm : 1 ≤ m) {ind : Indicator} {l : List (Ctx × Tick)}
    (h : (feedAll (Demo.with1 u q m ind) l).isOk = true) :
    ∃ fs hs, Feeds u q m fs hs ∧ hs.map (fun e => (e.ctx, e.tick)) = l ∧
      (∀ e ∈ hs, e.reg = (Demo.with1 u q m ind).indicators) ∧ fs.indicators = (Demo.with1 u q m ind).indicators ∧
      feedAll (Demo.with1 u q m ind) l = .ok fs := by
  rcases hf : feedAll (Demo.with1 u q m ind) l with e | fs
  · rw [hf] at h; cases h
  · obtain ⟨h', h1, h2, h3, h4⟩ := feeds_of_feedAll_reg hm (Feeds.ind ind Feeds.new) hf
    exact ⟨fs, h', by simpa using h1, h2, h3, h4, rfl⟩

/-- Observe the outcome of `feedAll`. -/
theorem Demo.obs {α : Type} {r : Except PyErr FrameSet} {fs : FrameSet} (h : r = .ok fs) {g : FrameSet → α} {x : α}
    (hg : r.map g = .ok x) : g fs = x := by
  rw [h] at hg; exact Except.ok.inj hg

/-- The value stored under `r` on the frame at position `i`. -/
def Demo.value (fs : FrameSet) (i : ℕ) (r : String) : Option IndVal := (fs.heap[i]?).bind (fun f => f.get r)

theorem Demo.value_some {fs : FrameSet} {i : ℕ} {r : String} {α : Type} {g : IndVal → α} {x : α}
    (h : (Demo.value fs i r).map g = some x) : ∃ f v, fs.heap[i]? = some f ∧ f.get r = some v ∧ g v = x := by
  obtain ⟨v, hv, hx⟩ := Option.map_eq_some_iff.mp h
  obtain ⟨f, hf, hv⟩ := Option.bind_eq_some_iff.mp hv
  exact ⟨f, v, hf, hv, hx⟩

end Estrade
