import Verif.Lemmas.Bars
import Verif.Props.Timeframes

/-!
# Frame sets whose frames end at whole minutes
-/

set_option linter.unusedSectionVars false
set_option autoImplicit false

namespace Estrade

/-! ## Boundaries -/

theorem minUs_dvd_hour : minUs ∣ hourUs := ⟨60, by decide⟩
theorem minUs_dvd_day : minUs ∣ dayUs := ⟨1440, by decide⟩

theorem frameEnd_minutes {z : Zone} (hz : ∀ x, minUs ∣ x → minUs ∣ z.resolve x) {u : Unit'} (h1 : u ≠ .second) (q : ℤ) {s : ℤ}
    (hs : minUs ∣ s) : minUs ∣ frameEnd z u q s := by
  unfold frameEnd
  split_ifs with ht
  · exact hs
  · refine hz _ ?_
    have hm : ∀ n, minUs ∣ shiftMonths s n := by
      intro n
      unfold shiftMonths midnight timeOf
      exact Int.dvd_add (minUs_dvd_day.mul_left _) (by rw [Int.emod_def]; exact Int.dvd_sub hs (minUs_dvd_day.mul_right _))
    cases u <;> unfold shiftUnit <;> simp only
    · exact absurd rfl ht
    · exact absurd rfl h1
    · exact Int.dvd_add hs (Int.dvd_mul_left _ _)
    · exact Int.dvd_add hs (minUs_dvd_hour.mul_left _)
    · exact Int.dvd_add hs (minUs_dvd_day.mul_left _)
    · exact Int.dvd_add hs ((minUs_dvd_day.mul_left _).mul_left _)
    · exact hm _
    · exact hm _

theorem grid_minutes {u : Unit'} {q : ℤ} (hT : Tiles u q) (h1 : u ≠ .second) (k : ℤ) : minUs ∣ grid u q k := by
  have ht := hT.ne_tick
  cases u <;> unfold grid <;> simp only
  · exact absurd rfl ht
  · exact absurd rfl h1
  · exact (Int.dvd_mul_left _ _).mul_left _
  · exact (minUs_dvd_hour.mul_left _).mul_left _
  · exact minUs_dvd_day.mul_left _
  · exact minUs_dvd_day.mul_left _
  · exact minUs_dvd_day.mul_left _
  · exact minUs_dvd_day.mul_left _

/-- Clocks of the same minute end before the same whole minutes. -/
theorem before_minute {a b pe : ℤ} (h : minUs ∣ pe) (hab : a / minUs = b / minUs) (ha : a < pe) : b < pe := by
  obtain ⟨k, rfl⟩ := h
  have hp : (0 : ℤ) < minUs := by decide
  rw [mul_comm] at ha ⊢
  rw [← Int.ediv_lt_iff_lt_mul hp] at ha ⊢
  rwa [← hab]

section
variable [Arith]

/-- Every frame ends at a whole minute. -/
def MinFrames (A : List AF) : Prop := ∀ a ∈ A, ∃ pe, a.stop = some pe ∧ minUs ∣ pe

theorem MinFrames.snoc {A : List AF} (h : MinFrames A) {a : AF} (ha : ∃ pe, a.stop = some pe ∧ minUs ∣ pe) : MinFrames (A ++ [a]) := by
  intro x hx
  rcases List.mem_append.mp hx with hx | hx
  · exact h x hx
  · rw [List.mem_singleton.mp hx]; exact ha

theorem fillLoop_minutes {u : Unit'} {q m : ℤ} (hm : 1 ≤ m) (hu : u ≠ .second) {c : Ctx} (hz : ∀ x, minUs ∣ x → minUs ∣ c.zone.resolve x)
    {ps : ℤ} (fuel : ℕ) : ∀ (fs fs' : FrameSet) (A : List AF), Built u q m fs A → MinFrames A → fillLoop c ps fuel fs = .ok fs' →
    fs'.indicators = fs.indicators ∧ ∃ F, Built u q m fs' (A ++ F) ∧ MinFrames (A ++ F) := by
  induction fuel with
  | zero =>
    intro fs fs' A hB hA h
    rw [fillLoop] at h
    split at h
    · cases h; exact ⟨rfl, [], by simpa using hB, by simpa using hA⟩
    · split at h
      · cases h
      · split_ifs at h
        cases h; exact ⟨rfl, [], by simpa using hB, by simpa using hA⟩
  | succ fuel ih =>
    intro fs fs' A hB hA h
    rw [fillLoop] at h
    split at h
    · cases h; exact ⟨rfl, [], by simpa using hB, by simpa using hA⟩
    · rename_i i f hc
      split at h
      · cases h
      · rename_i pe hpe
        split_ifs at h
        · simp only [bind, Except.bind] at h
          split at h
          · cases h
          · rename_i fs1 hcr
            have hmin : minUs ∣ pe := by
              rcases List.eq_nil_or_concat A with rfl | ⟨B, a, rfl⟩
              · rw [(hB.rep hm).current_none] at hc; cases hc
              · rw [List.concat_eq_append] at hB hA
                obtain ⟨g, hg, -, hco⟩ := (hB.rep hm).current (by rw [hB.fields.2.2]; exact hm)
                rw [hg] at hc
                cases hc
                obtain ⟨x, h1, h2⟩ := hA a (by simp)
                rw [hco.stop, h1] at hpe
                cases hpe
                exact h2
            have hA1 := hA.snoc (a := ⟨pe, some (frameEnd c.zone fs.unit fs.qty pe), [⟨f.last, c.marketOpen, fs.indicators⟩]⟩)
              ⟨_, rfl, by rw [hB.fields.1]; exact frameEnd_minutes hz hu _ hmin⟩
            obtain ⟨h1, F, h2, h3⟩ := ih fs1 fs' _ (Built.create _ _ _ _ hB hcr) hA1 h
            exact ⟨by rw [h1, createFrame_fields hcr], _, by rw [← List.append_assoc]; exact h2, by rw [← List.append_assoc]; exact h3⟩
        · cases h; exact ⟨rfl, [], by simpa using hB, by simpa using hA⟩

/-- A frame set with a history, of minutes or longer units. -/
def MinSet (fs : FrameSet) : Prop := ∃ u q m A, Spec.Accepted u q ∧ u ≠ .second ∧ 1 ≤ m ∧ Built u q m fs A ∧ MinFrames A

theorem ready_after {heap : List Frame} {id : ℕ} {t : Tick} {mo : Bool} {reg : Dict Indicator} (hreg : RegOk reg) {f f' : Frame}
    (hk : f.inds.keys.Nodup) (hu : upsert heap id t mo reg f = .ok f') : Ready reg mo f' := by
  rintro ⟨r, ind⟩ hp
  refine ⟨(upsert_keys hreg.refs hu hk).2.2 _ hp, fun hn => ?_⟩
  have hg : reg.get? r = some ind := Dict.get?_of_mem hreg.1 hp
  have hs := (hreg.upsert_get r hu).2 ind hg
  rw [hn] at hs
  rcases hf : f.get r with _ | v
  · rw [hf] at hs
    have hs : ind.build heap id f mo = .ok none := hs
    unfold Indicator.build at hs
    split_ifs at hs with h1
    · simp only [bind, Except.bind] at hs
      split at hs <;> cases hs
    · simpa using h1
  · rw [hf] at hs
    obtain ⟨x, -, hx⟩ := hs
    cases hx

theorem Ready.of_inds {reg : Dict Indicator} {mo : Bool} {f g : Frame} (h : Ready reg mo f) (hi : g.inds = f.inds) : Ready reg mo g := by
  intro p hp
  have := h p hp
  unfold Frame.get at this ⊢
  rw [hi]
  exact this

/-- A frame set that has just seen a tick. -/
structure Seen (fs : FrameSet) (mo : Bool) (w : ℤ) (i : ℕ) (f : Frame) (pe : ℤ) : Prop where
  unit : fs.unit ≠ .tick
  current : fs.current = some (i, f)
  stop : f.periodEnd = some pe
  before : w < pe
  minute : minUs ∣ pe
  prev : f.prev ≠ some i
  reg : RegOk fs.indicators
  ready : Ready fs.indicators mo f
  tidy : Tidy f

theorem MinSet.after {fs fs' : FrameSet} (h : MinSet fs) {c : Ctx} {t : Tick} (hz : ∀ x, x ≤ c.zone.resolve x)
    (hzm : ∀ x, minUs ∣ x → minUs ∣ c.zone.resolve x) (hok : fs.onNewTick c t = .ok fs') :
    MinSet fs' ∧ ∃ i f pe, Seen fs' c.marketOpen t.dt.wall i f pe := by
  obtain ⟨u, q, m, A, ha, hs, hm, hB, hA⟩ := h
  have hT := accepted_tiles ha
  have hmf : 1 ≤ fs.maxFrames := by rw [hB.fields.2.2]; exact hm
  -- what holds of the last frame
  have finish : ∀ (B : List AF) (a : AF) (pe : ℤ), Built u q m fs' (B ++ [a]) → MinFrames (B ++ [a]) → a.stop = some pe → t.dt.wall < pe →
      (∀ f, fs'.heap[B.length]? = some f → Ready fs'.indicators c.marketOpen f) →
      MinSet fs' ∧ ∃ i f pe, Seen fs' c.marketOpen t.dt.wall i f pe := by
    intro B a pe hB' hA' hpe hw hr
    refine ⟨⟨u, q, m, _, ha, hs, hm, hB', hA'⟩, ?_⟩
    have hR := hB'.rep hm
    obtain ⟨f, hc, hg, hco⟩ := hR.current (by rw [hB'.fields.2.2]; exact hm)
    have hmem := List.mem_of_getElem? hg
    refine ⟨B.length, f, pe, ?_, hc, by rw [hco.stop, hpe], hw, ?_, ?_, hB'.regOk, hr f hg, ?_, hB'.keys hm f hmem, hB'.ordered hm f hmem⟩
    · rw [hB'.fields.1]; exact hT.ne_tick
    · obtain ⟨x, h1, h2⟩ := hA' a (by simp)
      rw [hpe] at h1; cases h1; exact h2
    · rw [hR.prev B.length f hg]
      split_ifs with hlt
      · intro h
        have := Option.some.inj h
        omega
      · simp
    · exact hco.sum.low_le _ hco.sum.high_mem
  unfold FrameSet.onNewTick at hok
  rw [if_neg (by rw [hB.fields.1]; exact hT.ne_tick)] at hok
  simp only [bind, Except.bind] at hok
  split at hok
  · cases hok
  rename_i b hb
  cases b with
  | true =>
    simp only [if_true] at hok
    unfold FrameSet.createTimed at hok
    simp only [bind, Except.bind] at hok
    split at hok
    · cases hok
    rename_i ps hps
    split at hok
    · cases hok
    rename_i gs hfl
    obtain ⟨e1, F, hG, hF⟩ := fillLoop_minutes hm hs hzm _ _ _ _ hB hA hfl
    rw [hB.fields.1, hB.fields.2.1] at hps
    have hgrid := frameStart_ok hT hps
    obtain ⟨g1, g2⟩ := gidx_spec hT t.dt.wall
    have hpe : frameEnd c.zone fs.unit fs.qty ps = c.zone.resolve (grid u q (gidx u q t.dt.wall + 1)) := by
      rw [hB.fields.1, hB.fields.2.1, hgrid, frameEnd_grid hT]
    obtain ⟨f, hu, hbare, hfs, -⟩ := createFrame_inv (hG.rep hm) (by rw [hG.fields.2.2]; exact hm) hok
    have hlen := (hG.rep hm).len
    refine finish _ _ _ (Built.create c t ps _ hG hok) (hF.snoc ⟨_, rfl, ?_⟩) rfl ?_ ?_
    · rw [hpe]; exact hzm _ (grid_minutes hT hs _)
    · rw [hpe]; exact g2.trans_le (hz _)
    · intro g hg
      have hb' := hbare (A ++ F).length
      rw [hg, ← hlen, List.getElem?_append_right le_rfl, Nat.sub_self] at hb'
      have hinds : g.inds = f.inds := by have := congrArg Frame.inds (Option.some.inj hb'); exact this
      have hI : fs'.indicators = gs.indicators := by rw [hfs]
      rw [hI]
      exact (ready_after hG.regOk (f := Frame.fresh t ps _ gs.frames.getLast?) List.nodup_nil hu).of_inds hinds
  | false =>
    simp only [Bool.false_eq_true, if_false] at hok
    rcases List.eq_nil_or_concat A with rfl | ⟨B, a, rfl⟩
    · unfold FrameSet.overTimed at hb
      rw [(hB.rep hm).current_none] at hb
      cases hb
    rw [List.concat_eq_append] at hB hA
    have hR := hB.rep hm
    obtain ⟨f0, f1, h0, hco, hu, hfs, -⟩ := addToLast_inv hR hmf hok
    obtain ⟨pe, hpe, hdvd⟩ := hA a (by simp)
    have hA' : MinFrames (B ++ [{ a with evs := a.evs ++ [⟨t, c.marketOpen, fs.indicators⟩] }]) :=
      MinFrames.snoc (fun x hx => hA x (by simp [hx])) ⟨pe, hpe, hdvd⟩
    refine finish B _ pe (Built.add c t hB hok) hA' hpe ?_ ?_
    · obtain ⟨f, hc, -, hco'⟩ := hR.current hmf
      unfold FrameSet.overTimed at hb
      rw [hc] at hb
      simp only [hco'.stop, hpe, Except.ok.injEq, decide_eq_false_iff_not, not_le] at hb
      exact hb
    · intro g hg
      have hlt : B.length < fs.heap.length := (List.getElem?_eq_some_iff.mp h0).1
      rw [hfs] at hg ⊢
      simp only [List.getElem?_set_self hlt] at hg
      cases hg
      refine ready_after hB.regOk ?_ hu
      rw [track_eq]
      exact hB.keys hm f0 (List.mem_of_getElem? h0)

end
end Estrade
