import Verif.Lemmas.IndRep

/-!
# The deliveries of a history, grouped by frame
-/

set_option autoImplicit false
set_option linter.unusedSectionVars false

namespace Estrade

variable [Arith]

/-- Spec: how the ticks of a history are distributed over frames: each tick goes to the current frame or opens a
new one; a new frame may be preceded by filler frames, which repeat the previous tick with the market state and
the indicators of the new one. -/
inductive Spec.Groups : List HEv → List (List Ev) → Prop
  | nil : Spec.Groups [] []
  | add {h : List HEv} {G : List (List Ev)} {g : List Ev} (x : HEv) : Spec.Groups h (G ++ [g]) →
      Spec.Groups (h ++ [x]) (G ++ [g ++ [x.ev]])
  | create {h : List HEv} {G : List (List Ev)} (x : HEv) (k : ℕ) (t : Tick) : Spec.Groups h G →
      (k = 0 ∨ (h.map HEv.tick).getLast? = some t) →
      Spec.Groups (h ++ [x]) (G ++ List.replicate k [⟨t, x.ctx.marketOpen, x.reg⟩] ++ [[x.ev]])

theorem Spec.Groups.nonempty {h : List HEv} {G : List (List Ev)} (hG : Spec.Groups h G) : ∀ g ∈ G, g ≠ [] := by
  induction hG with
  | nil => simp
  | add x _ ih =>
    intro g hg
    rcases List.mem_append.mp hg with hg | hg
    · exact ih g (List.mem_append_left _ hg)
    · rw [List.mem_singleton.mp hg]; simp
  | create x k t _ _ ih =>
    intro g hg
    rcases List.mem_append.mp hg with hg | hg
    · rcases List.mem_append.mp hg with hg | hg
      · exact ih g hg
      · rw [List.eq_of_mem_replicate hg]; simp
    · rw [List.mem_singleton.mp hg]; simp

theorem Spec.Groups.reg {h : List HEv} {G : List (List Ev)} (hG : Spec.Groups h G) :
    ∀ g ∈ G, ∀ e ∈ g, ∃ x ∈ h, e.reg = x.reg ∧ e.mo = x.ctx.marketOpen := by
  induction hG with
  | nil => simp
  | add x _ ih =>
    intro g hg e he
    rcases List.mem_append.mp hg with hg | hg
    · obtain ⟨y, hy, hh⟩ := ih g (List.mem_append_left _ hg) e he
      exact ⟨y, List.mem_append_left _ hy, hh⟩
    · rw [List.mem_singleton.mp hg] at he
      rcases List.mem_append.mp he with he | he
      · obtain ⟨y, hy, hh⟩ := ih _ (List.mem_append_right _ (List.mem_singleton.mpr rfl)) e he
        exact ⟨y, List.mem_append_left _ hy, hh⟩
      · rw [List.mem_singleton.mp he]; exact ⟨x, by simp, rfl, rfl⟩
  | create x k t _ _ ih =>
    intro g hg e he
    rcases List.mem_append.mp hg with hg | hg
    · rcases List.mem_append.mp hg with hg | hg
      · obtain ⟨y, hy, hh⟩ := ih g hg e he
        exact ⟨y, List.mem_append_left _ hy, hh⟩
      · rw [List.eq_of_mem_replicate hg] at he
        rw [List.mem_singleton.mp he]; exact ⟨x, by simp, rfl, rfl⟩
    · rw [List.mem_singleton.mp hg] at he
      rw [List.mem_singleton.mp he]; exact ⟨x, by simp, rfl, rfl⟩

/-- The frames other than fillers hold every tick of the history once, in order: the last events agree. -/
theorem Spec.Groups.last {h : List HEv} {G : List (List Ev)} (hG : Spec.Groups h G) :
    (h = [] ∧ G = []) ∨ ∃ h' x G' g, h = h' ++ [x] ∧ G = G' ++ [g] ∧ g.getLast? = some x.ev := by
  cases hG with
  | nil => exact .inl ⟨rfl, rfl⟩
  | add x _ => exact .inr ⟨_, x, _, _, rfl, rfl, by simp⟩
  | create x k t _ _ => exact .inr ⟨_, x, _, _, rfl, rfl, by simp⟩

theorem fillLoop_groups {u : Unit'} {q m : ℤ} (hm : 1 ≤ m) {c : Ctx} {ps : ℤ} (fuel : ℕ) :
    ∀ (fs fs' : FrameSet) (A : List AF), Built u q m fs A → fillLoop c ps fuel fs = .ok fs' →
    fs'.indicators = fs.indicators ∧ ∃ F k t, Built u q m fs' (A ++ F) ∧
      F.map AF.evs = List.replicate k [⟨t, c.marketOpen, fs.indicators⟩] ∧
      (k = 0 ∨ ∃ B a e, A = B ++ [a] ∧ a.evs.getLast? = some e ∧ t = e.tick) := by
  induction fuel with
  | zero =>
    intro fs fs' A hB h
    rw [fillLoop] at h
    split at h
    · cases h; exact ⟨rfl, [], 0, Tick.epoch, by simpa using hB, rfl, .inl rfl⟩
    · split at h
      · cases h
      · split_ifs at h
        cases h; exact ⟨rfl, [], 0, Tick.epoch, by simpa using hB, rfl, .inl rfl⟩
  | succ fuel ih =>
    intro fs fs' A hB h
    rw [fillLoop] at h
    split at h
    · cases h; exact ⟨rfl, [], 0, Tick.epoch, by simpa using hB, rfl, .inl rfl⟩
    · rename_i i f hcur
      split at h
      · cases h
      · split_ifs at h
        · simp only [bind, Except.bind] at h
          split at h
          · cases h
          · rename_i fs1 hcr
            obtain ⟨h1, F, k, t, h2, h3, h4⟩ := ih fs1 fs' _ (Built.create _ _ _ _ hB hcr) h
            have hi : fs1.indicators = fs.indicators := by rw [createFrame_fields hcr]
            have hA : ∃ B a e, A = B ++ [a] ∧ a.evs.getLast? = some e ∧ f.last = e.tick := by
              rcases List.eq_nil_or_concat A with rfl | ⟨B, a, rfl⟩
              · rw [(hB.rep hm).current_none] at hcur; cases hcur
              · rw [List.concat_eq_append] at hB ⊢
                obtain ⟨f', hc', -, hco⟩ := (hB.rep hm).current (by rw [hB.fields.2.2]; exact hm)
                rw [hcur] at hc'
                cases hc'
                have := hco.sum.last
                rw [List.getLast?_map] at this
                obtain ⟨e, he, he'⟩ := Option.map_eq_some_iff.mp this
                exact ⟨B, a, e, rfl, he, he'.symm⟩
            refine ⟨by rw [h1, hi], _, k + 1, f.last, by rw [← List.append_assoc]; exact h2, ?_, .inr hA⟩
            rw [List.map_append, h3, hi, List.replicate_succ]
            rcases h4 with rfl | ⟨B', a', e', hB', he', rfl⟩
            · rfl
            · have := List.append_inj_right' hB' (by simp)
              simp only [List.cons.injEq, and_true] at this
              subst this
              simp only [List.getLast?_singleton, Option.some.injEq] at he'
              subst he'
              rfl
        · cases h; exact ⟨rfl, [], 0, Tick.epoch, by simpa using hB, rfl, .inl rfl⟩

theorem step_groups {u : Unit'} {q m : ℤ} (hm : 1 ≤ m) {fs fs' : FrameSet} {A : List AF} {c : Ctx}
    {t : Tick} (hB : Built u q m fs A) (h : fs.onNewTick c t = .ok fs') {hist : List HEv}
    (hG : Spec.Groups hist (A.map AF.evs)) :
    ∃ A', Built u q m fs' A' ∧ Spec.Groups (hist ++ [⟨c, t, fs.indicators⟩]) (A'.map AF.evs) := by
  have hadd : fs.addToLast c t = .ok fs' → A ≠ [] →
      ∃ A', Built u q m fs' A' ∧ Spec.Groups (hist ++ [⟨c, t, fs.indicators⟩]) (A'.map AF.evs) := by
    intro hok hne
    rcases List.eq_nil_or_concat A with rfl | ⟨B, a, rfl⟩
    · exact absurd rfl hne
    · rw [List.concat_eq_append] at hB hG
      refine ⟨_, Built.add c t hB hok, ?_⟩
      rw [List.map_append] at hG ⊢
      exact Spec.Groups.add ⟨c, t, fs.indicators⟩ hG
  unfold FrameSet.onNewTick at h
  split_ifs at h with h1 h2
  · refine ⟨_, Built.create c t _ _ hB h, ?_⟩
    have := Spec.Groups.create ⟨c, t, fs.indicators⟩ 0 t hG (.inl rfl)
    simpa [HEv.ev] using this
  · refine hadd h ?_
    rintro rfl
    apply h2
    unfold FrameSet.overTick
    rw [(hB.rep hm).current_none]
  · simp only [bind, Except.bind] at h
    split at h
    · cases h
    · rename_i b hb
      cases b with
      | true =>
        simp only [if_true] at h
        unfold FrameSet.createTimed at h
        simp only [bind, Except.bind] at h
        split at h
        · cases h
        · split at h
          · cases h
          · rename_i fs1 hfl
            obtain ⟨e1, F, k, t', hB1, hF, hlast⟩ := fillLoop_groups hm _ _ _ _ hB hfl
            have hcr := Built.create c t _ _ hB1 h
            refine ⟨_, hcr, ?_⟩
            rw [List.map_append, List.map_append, hF, e1]
            refine Spec.Groups.create ⟨c, t, fs.indicators⟩ k t' hG ?_
            rcases hlast with h0 | ⟨B, a, e, rfl, he, rfl⟩
            · exact .inl h0
            · right
              rcases hG.last with ⟨-, h0⟩ | ⟨h', x, G', g, rfl, hg, hx⟩
              · simp at h0
              · rw [List.map_append] at hg
                have := List.append_inj_right' hg (by simp)
                simp only [List.map_cons, List.map_nil, List.cons.injEq, and_true] at this
                subst this
                rw [hx] at he
                cases he
                simp [HEv.ev]
      | false =>
        simp only [Bool.false_eq_true, if_false] at h
        refine hadd h ?_
        rintro rfl
        unfold FrameSet.overTimed at hb
        rw [(hB.rep hm).current_none] at hb
        cases hb

theorem feeds_groups {u : Unit'} {q m : ℤ} (hm : 1 ≤ m) {fs : FrameSet} {h : List HEv}
    (hF : Feeds u q m fs h) : ∃ A, Built u q m fs A ∧ Spec.Groups h (A.map AF.evs) := by
  induction hF with
  | new => exact ⟨[], Built.new, .nil⟩
  | ind i _ ih => obtain ⟨A, hB, hA⟩ := ih; exact ⟨A, Built.ind i hB, hA⟩
  | tick c t _ hok ih =>
    obtain ⟨A, hB, hA⟩ := ih
    exact step_groups hm hB hok hA

end Estrade
