import Verif.Lemmas.Calm

/-!
# Invariants of stored indicator values, and the arithmetic of the RSI
-/

set_option autoImplicit false
set_option linter.unusedSectionVars false
set_option linter.unnecessarySeqFocus false

namespace Estrade

variable [Arith]

theorem fl_ofNat_100 : fl (100 : ℚ) = 100 := by
  have := fl_int (n := 100) (by norm_num)
  simpa using this

/-- 0 and 100 bound the results of `_build_rsi`, whatever the rounding. -/
theorem buildRsi_range {n : ℤ} (hn : 0 ≤ n) {l : List ℚ} {x : ℚ} (h : buildRsi n l = .ok x) : 0 ≤ x ∧ x ≤ 100 := by
  obtain ⟨s1, s2⟩ := buildSums_sign l
  unfold buildRsi at h
  simp only at h
  split_ifs at h
  · cases h; norm_num
  · cases h; norm_num
  · simp only [bind, Except.bind] at h
    split at h
    · cases h
    rename_i pa hpa
    split at h
    · cases h
    rename_i na hna
    split at h
    · cases h
    rename_i rs hrs
    split at h
    · cases h
    rename_i d hd
    cases h
    have hn' : (0 : ℚ) ≤ n := by exact_mod_cast hn
    obtain ⟨-, rfl⟩ := pyDiv_ok hpa
    obtain ⟨-, rfl⟩ := pyDiv_ok hrs
    obtain ⟨-, rfl⟩ := pyDiv_ok hd
    have hpa0 : 0 ≤ fdiv (buildSums l).1 n := fl_nonneg (by positivity)
    have hrs0 : 0 ≤ fdiv (fdiv (buildSums l).1 n) |na| := fl_nonneg (by positivity)
    have h1 : 1 ≤ fadd 1 (fdiv (fdiv (buildSums l).1 n) |na|) := by
      have := fl_mono (x := 1) (y := 1 + fdiv (fdiv (buildSums l).1 n) |na|) (by linarith)
      have e : fl (1 : ℚ) = 1 := by have := fl_int (n := 1) (by norm_num); simpa using this
      rw [e] at this; exact this
    set y := fadd 1 (fdiv (fdiv (buildSums l).1 n) |na|)
    have hd0 : 0 ≤ fdiv 100 y := fl_nonneg (by positivity)
    have hd1 : fdiv 100 y ≤ 100 := by
      have := fl_mono (x := 100 / y) (y := 100) (by rw [div_le_iff₀ (by linarith)]; linarith)
      rw [fl_ofNat_100] at this; exact this
    have h2 : 0 ≤ fsub 100 (fdiv 100 y) := fl_nonneg (by linarith)
    have h3 : fsub 100 (fdiv 100 y) ≤ 100 := by
      have := fl_mono (x := 100 - fdiv 100 y) (y := 100) (by linarith)
      rw [fl_ofNat_100] at this; exact this
    refine ⟨rnd_nonneg h2, ?_⟩
    have := rnd_mono h3
    have e : rnd (100 : ℚ) = 100 := by
      have := rnd_int (n := 100) (by norm_num)
      simpa using this
    rwa [e] at this

theorem buildSums_snd_of_nonneg {l : List ℚ} (h : ∀ x ∈ l, 0 ≤ x) : (buildSums l).2 = 0 := by
  unfold buildSums
  suffices ∀ a : ℚ, (l.foldl (fun s v => if 0 ≤ v then (fadd s.1 v, s.2) else (s.1, fadd s.2 v)) (a, 0)).2 = 0 from
    this 0
  induction l with
  | nil => intro a; rfl
  | cons v l ih =>
    intro a
    rw [List.foldl_cons, if_pos (h v (by simp))]
    exact ih (fun x hx => h x (List.mem_cons_of_mem _ hx)) _

theorem buildSums_fst_of_nonpos {l : List ℚ} (h : ∀ x ∈ l, x ≤ 0) : (buildSums l).1 = 0 := by
  unfold buildSums
  suffices ∀ b : ℚ, (l.foldl (fun s v => if 0 ≤ v then (fadd s.1 v, s.2) else (s.1, fadd s.2 v)) (0, b)).1 = 0 from
    this 0
  induction l with
  | nil => intro a; rfl
  | cons v l ih =>
    intro a
    rw [List.foldl_cons]
    split_ifs with hv
    · have : v = 0 := le_antisymm (h v (by simp)) hv
      subst this
      rw [show fadd (0 : ℚ) 0 = 0 by unfold fadd; rw [add_zero, fl_zero]]
      exact ih (fun x hx => h x (List.mem_cons_of_mem _ hx)) _
    · exact ih (fun x hx => h x (List.mem_cons_of_mem _ hx)) _

theorem buildSums_snd_neg {l : List ℚ} (hf : ∀ x ∈ l, fl x = x) (h : ∃ x ∈ l, x < 0) : (buildSums l).2 < 0 := by
  unfold buildSums
  have key : ∀ (l : List ℚ), (∀ x ∈ l, fl x = x) → ∀ a b : ℚ, b ≤ 0 → (b < 0 ∨ ∃ x ∈ l, x < 0) →
      (l.foldl (fun s v => if 0 ≤ v then (fadd s.1 v, s.2) else (s.1, fadd s.2 v)) (a, b)).2 < 0 := by
    intro l
    induction l with
    | nil =>
      intro _ a b _ h
      rcases h with h | ⟨x, hx, -⟩
      · exact h
      · cases hx
    | cons v l ih =>
      intro hf a b hb h
      rw [List.foldl_cons]
      have hf' := fun x hx => hf x (List.mem_cons_of_mem _ hx)
      split_ifs with hv
      · refine ih hf' _ _ hb ?_
        rcases h with h | ⟨x, hx, hx0⟩
        · exact .inl h
        · rcases List.mem_cons.mp hx with rfl | hx
          · linarith
          · exact .inr ⟨x, hx, hx0⟩
      · have h2 : fadd b v < 0 := by
          have := fl_mono (x := b + v) (y := v) (by linarith)
          rw [hf v (by simp)] at this
          unfold fadd
          linarith [not_le.mp hv]
        exact ih hf' _ _ h2.le (.inl h2)
  exact key l hf 0 0 le_rfl (.inr h)

theorem buildRsi_gains {n : ℤ} {l : List ℚ} (h : ∀ x ∈ l, 0 ≤ x) : buildRsi n l = .ok 100 := by
  unfold buildRsi
  simp only
  rw [if_pos (buildSums_snd_of_nonneg h)]

theorem buildRsi_losses {n : ℤ} {l : List ℚ} (hf : ∀ x ∈ l, fl x = x) (h : ∀ x ∈ l, x ≤ 0) (he : ∃ x ∈ l, x < 0) :
    buildRsi n l = .ok 0 := by
  unfold buildRsi
  simp only
  rw [if_neg (buildSums_snd_neg hf he).ne, if_pos (buildSums_fst_of_nonpos h)]

/-- Spec: the sum of the gains in a list of changes. -/
def Spec.rises (l : List ℚ) : ℚ := (l.filter (0 < ·)).sum

/-- Spec: the sum of the losses in a list of changes, as a positive number. -/
def Spec.falls (l : List ℚ) : ℚ := ((l.filter (· < 0)).map (- ·)).sum

/-- Spec: the relative strength index of a list of changes. -/
def Spec.rsi (l : List ℚ) : ℚ :=
  if Spec.falls l = 0 then 100 else cent (100 - 100 / (1 + Spec.rises l / Spec.falls l))

theorem buildSums_exact (hE : Exact) (l : List ℚ) : buildSums l = (Spec.rises l, - Spec.falls l) := by
  unfold buildSums
  suffices ∀ a b : ℚ, l.foldl (fun s v => if 0 ≤ v then (fadd s.1 v, s.2) else (s.1, fadd s.2 v)) (a, b) =
      (a + Spec.rises l, b - Spec.falls l) by
    rw [this]; simp
  induction l with
  | nil => intro a b; simp [Spec.rises, Spec.falls]
  | cons v l ih =>
    intro a b
    rw [List.foldl_cons]
    unfold Spec.rises Spec.falls at ih ⊢
    split_ifs with hv
    · rw [fadd_exact hE, ih]
      rcases hv.eq_or_lt with h0 | h0
      · subst h0; simp
      · rw [List.filter_cons_of_pos (by simpa using h0), List.filter_cons_of_neg (by simpa using hv), List.sum_cons]
        ext <;> simp only <;> ring
    · rw [fadd_exact hE, ih]
      have hv := not_le.mp hv
      rw [List.filter_cons_of_neg (by simpa using hv.le), List.filter_cons_of_pos (by simpa using hv), List.map_cons,
        List.sum_cons]
      ext <;> simp only <;> ring

theorem falls_nonneg (l : List ℚ) : 0 ≤ Spec.falls l := by
  unfold Spec.falls
  apply List.sum_nonneg
  intro x hx
  obtain ⟨y, hy, rfl⟩ := List.mem_map.mp hx
  have := of_decide_eq_true (List.mem_filter.mp hy).2
  linarith

theorem rises_nonneg (l : List ℚ) : 0 ≤ Spec.rises l := by
  unfold Spec.rises
  apply List.sum_nonneg
  intro x hx
  exact (of_decide_eq_true (List.mem_filter.mp hx).2).le

theorem buildRsi_exact (hE : Exact) {n : ℤ} (hn : 0 < n) (l : List ℚ) : buildRsi n l = .ok (Spec.rsi l) := by
  have hn' : (0 : ℚ) < n := by exact_mod_cast hn
  have hL := falls_nonneg l
  have hG := rises_nonneg l
  unfold buildRsi
  simp only [buildSums_exact hE l, neg_eq_zero]
  unfold Spec.rsi
  split_ifs with h1 h2
  · rfl
  · rw [h2]; simp [cent, rhe]
  · have hLp : 0 < Spec.falls l := lt_of_le_of_ne hL (Ne.symm h1)
    have e1 : pyDiv (Spec.rises l) (n : ℚ) = .ok (Spec.rises l / n) := by
      unfold pyDiv; rw [if_neg hn'.ne', fdiv_exact hE]
    have e2 : pyDiv (-Spec.falls l) (n : ℚ) = .ok (-Spec.falls l / n) := by
      unfold pyDiv; rw [if_neg hn'.ne', fdiv_exact hE]
    have ha : |-Spec.falls l / (n : ℚ)| = Spec.falls l / n := by
      rw [neg_div, abs_neg, abs_of_nonneg (by positivity)]
    have e3 : pyDiv (Spec.rises l / n) |-Spec.falls l / (n : ℚ)| = .ok (Spec.rises l / Spec.falls l) := by
      rw [ha]
      unfold pyDiv
      rw [if_neg (by positivity), fdiv_exact hE, div_div_div_cancel_right₀ hn'.ne']
    have hd : (1 : ℚ) + Spec.rises l / Spec.falls l ≠ 0 := by positivity
    simp only [bind, Except.bind, e1, e2, e3, fadd_exact hE]
    unfold pyDiv
    rw [if_neg hd]
    simp only [fdiv_exact hE, fsub_exact hE, rnd_exact hE]

end Estrade
