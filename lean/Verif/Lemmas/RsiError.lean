import Verif.Lemmas.ValInv

/-!
# Rounding errors of the RSI and of means

`RelErr δ x s`: the float `x` approximates the number `s ≥ 0` within the relative error `δ`.
-/

set_option autoImplicit false
set_option linter.unusedSectionVars false

namespace Estrade

variable [Arith]

def RelErr (δ x s : ℚ) : Prop := |x - s| ≤ δ * s

theorem RelErr.mono {δ ε x s : ℚ} (h : RelErr δ x s) (hs : 0 ≤ s) (hd : δ ≤ ε) : RelErr ε x s :=
  le_trans h (mul_le_mul_of_nonneg_right hd hs)

/-- One rounding of a number that is not tiny. -/
theorem RelErr.fl (hA : Accurate) {δ x s : ℚ} (hs : 1 / 2 ^ 140 ≤ s) (_hd0 : 0 ≤ δ) (hd : δ ≤ 1 / 2) (h : RelErr δ x s) :
    RelErr (δ + 1 / 2 ^ 51) (Arith.fl x) s := by
  have hs0 : 0 < s := lt_of_lt_of_le (by positivity) hs
  unfold RelErr at *
  have h1 := hA x
  have h2 : |x| ≤ 3 / 2 * s := by
    have := abs_add_le (x - s) s
    rw [sub_add_cancel, abs_of_pos hs0] at this
    nlinarith
  have h3 : |x| / 2 ^ 53 ≤ 3 / 2 * s / 2 ^ 53 := by gcongr
  have h4 : (1 : ℚ) / 2 ^ 200 ≤ s / 2 ^ 54 := by
    rw [le_div_iff₀ (by positivity)]
    have : (1 : ℚ) / 2 ^ 200 * 2 ^ 54 ≤ 1 / 2 ^ 140 := by norm_num
    linarith
  have h5 := abs_add_le (Arith.fl x - x) (x - s)
  rw [sub_add_sub_cancel] at h5
  have h6 : 3 / 2 * s / 2 ^ 53 + s / 2 ^ 54 ≤ 1 / 2 ^ 51 * s := by
    have : 3 / 2 * s / 2 ^ 53 + s / 2 ^ 54 = 1 / 2 ^ 52 * s := by ring
    rw [this]
    have : (1 : ℚ) / 2 ^ 52 ≤ 1 / 2 ^ 51 := by norm_num
    exact mul_le_mul_of_nonneg_right this hs0.le
  rw [add_mul]
  linarith

theorem RelErr.pos {δ x s : ℚ} (hs : 0 < s) (hd : δ ≤ 1 / 2) (h : RelErr δ x s) : 0 < x := by
  unfold RelErr at h
  have := (abs_le.mp h).1
  nlinarith

/-- Float sums of floats of one sign. -/
theorem relSum (hA : Accurate) : ∀ (l : List (ℚ × ℚ)) (a σ δ : ℚ), 0 ≤ σ → 1 / 2 ^ 51 ≤ δ → RelErr δ a σ →
    (∀ p ∈ l, RelErr (1 / 2 ^ 51) p.1 p.2 ∧ 1 / 2 ^ 60 ≤ p.2) → δ + l.length / 2 ^ 51 ≤ 1 / 2 →
    RelErr (δ + l.length / 2 ^ 51) (l.foldl (fun s p => fadd s p.1) a) (σ + (l.map Prod.snd).sum)
  | [], a, σ, δ, _, _, h, _, _ => by simpa using h
  | p :: l, a, σ, δ, hσ, hδ, h, hl, hb => by
    obtain ⟨h1, h2⟩ := hl p List.mem_cons_self
    have hp0 : 0 < p.2 := lt_of_lt_of_le (by positivity) h2
    rw [List.length_cons] at hb ⊢
    push_cast at hb ⊢
    have hn : (0 : ℚ) ≤ (l.length : ℚ) := Nat.cast_nonneg _
    have e : δ + ((l.length : ℚ) + 1) / 2 ^ 51 = δ + 1 / 2 ^ 51 + l.length / 2 ^ 51 := by ring
    rw [e] at hb ⊢
    have hl0 : (0 : ℚ) ≤ l.length / 2 ^ 51 := by positivity
    have h3 : RelErr δ (a + p.1) (σ + p.2) := by
      unfold RelErr at *
      have := abs_add_le (a - σ) (p.1 - p.2)
      rw [show a + p.1 - (σ + p.2) = (a - σ) + (p.1 - p.2) by ring]
      have := mul_le_mul_of_nonneg_right hδ hp0.le
      rw [mul_add]
      linarith
    have h140 : (1 : ℚ) / 2 ^ 140 ≤ 1 / 2 ^ 60 := by norm_num
    have h51 : (0 : ℚ) < 1 / 2 ^ 51 := by positivity
    have h4 := RelErr.fl hA (by linarith) (by linarith) (by linarith) h3
    rw [List.foldl_cons, List.map_cons, List.sum_cons, ← add_assoc]
    exact relSum hA l _ _ _ (by linarith) (by linarith) h4
      (fun p hp => hl p (List.mem_cons_of_mem _ hp)) hb

/-- The two sums of `_build_sums` are independent. -/
theorem buildSums_split (l : List ℚ) : ∀ a b : ℚ,
    l.foldl (fun s v => if 0 ≤ v then (fadd s.1 v, s.2) else (s.1, fadd s.2 v)) (a, b) =
    ((l.filter (0 ≤ ·)).foldl fadd a, (l.filter (· < 0)).foldl fadd b) := by
  induction l with
  | nil => intro a b; rfl
  | cons v l ih =>
    intro a b
    rw [List.foldl_cons]
    by_cases hv : 0 ≤ v
    · have hv' : ¬ v < 0 := not_lt.mpr hv
      rw [if_pos hv, ih]
      simp [hv]
    · have hv' : v < 0 := not_le.mp hv
      rw [if_neg hv, ih]
      simp [hv, hv']

/-- Changes: the float and the exact difference. -/
structure ChangeOf (c e : ℚ) : Prop where
  eq : c = fl e
  big : e = 0 ∨ 1 / 2 ^ 60 ≤ |e|

theorem ChangeOf.rel (hA : Accurate) {c e : ℚ} (h : ChangeOf c e) (he : 0 < e) : RelErr (1 / 2 ^ 51) c e ∧ 1 / 2 ^ 60 ≤ e := by
  have hb : 1 / 2 ^ 60 ≤ e := by
    rcases h.big with h | h
    · exact absurd h he.ne'
    · rwa [abs_of_pos he] at h
  refine ⟨?_, hb⟩
  have h140 : (1 : ℚ) / 2 ^ 140 ≤ 1 / 2 ^ 60 := by norm_num
  have := RelErr.fl hA (δ := 0) (x := e) (s := e) (by linarith) le_rfl (by norm_num) (by unfold RelErr; simp)
  rw [h.eq]
  simpa using this

theorem ChangeOf.neg {c e : ℚ} (h : ChangeOf c e) : ChangeOf (-c) (-e) :=
  ⟨by rw [h.eq, fl_neg], by rw [neg_eq_zero, abs_neg]; exact h.big⟩

theorem ChangeOf.sign (hA : Accurate) {c e : ℚ} (h : ChangeOf c e) : (0 < c ↔ 0 < e) ∧ (c < 0 ↔ e < 0) := by
  have hp : ∀ {c e : ℚ}, ChangeOf c e → 0 < e → 0 < c := fun h he => (h.rel hA he).1.pos he (by norm_num)
  rcases lt_trichotomy e 0 with he | he | he
  · have := hp h.neg (by linarith)
    exact ⟨⟨fun h => by linarith, fun h => by linarith⟩, ⟨fun _ => he, fun _ => by linarith⟩⟩
  · have : c = 0 := by rw [h.eq, he, fl_zero]
    rw [this, he]
    simp
  · have := hp h he
    exact ⟨⟨fun _ => he, fun _ => this⟩, ⟨fun h => by linarith, fun h => by linarith⟩⟩

theorem foldl_fadd_filter (l : List ℚ) : ∀ a : ℚ, fl a = a →
    (l.filter (0 ≤ ·)).foldl fadd a = (l.filter (0 < ·)).foldl fadd a := by
  induction l with
  | nil => intro a _; rfl
  | cons v l ih =>
    intro a ha
    rcases lt_trichotomy v 0 with hv | hv | hv
    · have h1 : ¬ 0 ≤ v := not_le.mpr hv
      have h2 : ¬ 0 < v := not_lt.mpr hv.le
      simp only [List.filter_cons, h1, h2, decide_false, Bool.false_eq_true, if_false]
      exact ih a ha
    · subst hv
      simp only [List.filter_cons, le_refl, lt_irrefl, decide_true, decide_false, Bool.false_eq_true, if_false, if_true,
        List.foldl_cons]
      rw [show fadd a 0 = a by unfold fadd; rw [add_zero, ha]]
      exact ih a ha
    · simp only [List.filter_cons, hv.le, hv, decide_true, if_true, List.foldl_cons]
      exact ih _ (fl_idem _)

theorem foldl_fadd_neg (l : List ℚ) : ∀ a : ℚ, l.foldl fadd (-a) = -((l.map (- ·)).foldl fadd a) := by
  induction l with
  | nil => intro a; rfl
  | cons v l ih =>
    intro a
    rw [List.foldl_cons, List.map_cons, List.foldl_cons, ← ih]
    congr 1
    unfold fadd
    rw [← fl_neg]
    congr 1
    ring

/-- The positive part of a list of changes, paired with the exact ones. -/
theorem rises_pairs (hA : Accurate) : ∀ (l e : List ℚ), List.Forall₂ ChangeOf l e →
    ∃ L : List (ℚ × ℚ), (l.filter (0 < ·)) = L.map Prod.fst ∧ Spec.rises e = (L.map Prod.snd).sum ∧
      (∀ p ∈ L, RelErr (1 / 2 ^ 51) p.1 p.2 ∧ 1 / 2 ^ 60 ≤ p.2) ∧ L.length ≤ l.length
  | [], _, h => by cases h; exact ⟨[], rfl, rfl, by simp, le_rfl⟩
  | c :: l, _, h => by
    cases h with
    | cons h1 h2 =>
      rename_i e es
      obtain ⟨L, a1, a2, a3, a4⟩ := rises_pairs hA l es h2
      by_cases hc : 0 < c
      · have he := (h1.sign hA).1.mp hc
        refine ⟨(c, e) :: L, ?_, ?_, ?_, ?_⟩
        · simp only [List.filter_cons, hc, decide_true, if_true, List.map_cons, a1]
        · unfold Spec.rises at *
          simp only [List.filter_cons, he, decide_true, if_true, List.map_cons, List.sum_cons, a2]
        · intro p hp
          rcases List.mem_cons.mp hp with rfl | hp
          · exact h1.rel hA he
          · exact a3 p hp
        · simp only [List.length_cons]; omega
      · have he : ¬ 0 < e := fun h => hc ((h1.sign hA).1.mpr h)
        refine ⟨L, ?_, ?_, a3, by simp only [List.length_cons]; omega⟩
        · simp only [List.filter_cons, hc, decide_false, Bool.false_eq_true, if_false, a1]
        · unfold Spec.rises at *
          simp only [List.filter_cons, he, decide_false, Bool.false_eq_true, if_false, a2]

theorem rel_rises (hA : Accurate) {l e : List ℚ} (h : List.Forall₂ ChangeOf l e) (hn : l.length ≤ 2 ^ 20) :
    RelErr (1 / 2 ^ 30) ((l.filter (0 < ·)).foldl fadd 0) (Spec.rises e) ∧
    (Spec.rises e = 0 ∨ 1 / 2 ^ 60 ≤ Spec.rises e) := by
  obtain ⟨L, h1, h2, h3, h4⟩ := rises_pairs hA l e h
  have hL : (L.length : ℚ) ≤ 2 ^ 20 := by exact_mod_cast h4.trans hn
  have hnn : ∀ p ∈ L, 0 ≤ p.2 := fun p hp => le_trans (by positivity) (h3 p hp).2
  have hs0 : 0 ≤ (L.map Prod.snd).sum :=
    List.sum_nonneg (by intro y hy; obtain ⟨z, hz, rfl⟩ := List.mem_map.mp hy; exact hnn z hz)
  have hb : (1 : ℚ) / 2 ^ 51 + L.length / 2 ^ 51 ≤ 1 / 2 ^ 30 := by
    have : (L.length : ℚ) / 2 ^ 51 ≤ 2 ^ 20 / 2 ^ 51 := by gcongr
    have : (1 : ℚ) / 2 ^ 51 + 2 ^ 20 / 2 ^ 51 ≤ 1 / 2 ^ 30 := by norm_num
    linarith
  have h30 : (1 : ℚ) / 2 ^ 30 ≤ 1 / 2 := by norm_num
  have := relSum hA L 0 0 (1 / 2 ^ 51) le_rfl le_rfl (by unfold RelErr; simp) h3 (by linarith)
  rw [zero_add] at this
  refine ⟨?_, ?_⟩
  · rw [h1, h2, List.foldl_map]
    exact this.mono hs0 hb
  · rw [h2]
    rcases L with _ | ⟨p, L⟩
    · left; rfl
    · right
      rw [List.map_cons, List.sum_cons]
      have h5 := (h3 p List.mem_cons_self).2
      have h6 : 0 ≤ (L.map Prod.snd).sum :=
        List.sum_nonneg (by
          intro y hy; obtain ⟨z, hz, rfl⟩ := List.mem_map.mp hy; exact hnn z (List.mem_cons_of_mem _ hz))
      linarith

theorem falls_neg (l : List ℚ) : Spec.falls l = Spec.rises (l.map (- ·)) := by
  unfold Spec.falls Spec.rises
  congr 1
  induction l with
  | nil => rfl
  | cons v l ih =>
    by_cases hv : v < 0
    · simp [hv, ih]
    · simp [hv, ih]

theorem forall2_neg {l e : List ℚ} (h : List.Forall₂ ChangeOf l e) :
    List.Forall₂ ChangeOf (l.map (- ·)) (e.map (- ·)) := by
  induction h with
  | nil => exact .nil
  | cons h _ ih => exact .cons h.neg ih

theorem filter_neg_map (l : List ℚ) : (l.filter (· < 0)).map (- ·) = (l.map (- ·)).filter (0 < ·) := by
  induction l with
  | nil => rfl
  | cons v l ih =>
    by_cases hv : v < 0
    · simp [hv, ih]
    · simp [hv, ih]

/-- The sums of `_build_sums` against the exact gains and losses. -/
theorem rel_buildSums (hA : Accurate) {l e : List ℚ} (h : List.Forall₂ ChangeOf l e) (hn : l.length ≤ 2 ^ 20) :
    RelErr (1 / 2 ^ 30) (buildSums l).1 (Spec.rises e) ∧ RelErr (1 / 2 ^ 30) (-(buildSums l).2) (Spec.falls e) ∧
    (Spec.rises e = 0 ∨ 1 / 2 ^ 60 ≤ Spec.rises e) ∧ (Spec.falls e = 0 ∨ 1 / 2 ^ 60 ≤ Spec.falls e) := by
  have h1 := rel_rises hA h hn
  have h2 := rel_rises hA (forall2_neg h) (by rwa [List.length_map])
  rw [← falls_neg] at h2
  unfold buildSums
  rw [buildSums_split]
  refine ⟨?_, ?_, h1.2, h2.2⟩
  · simp only
    rw [foldl_fadd_filter _ _ fl_zero]
    exact h1.1
  · simp only
    have := foldl_fadd_neg (l.filter (· < 0)) 0
    rw [neg_zero] at this
    rw [this, neg_neg, filter_neg_map]
    exact h2.1

/-- The quotient of two approximations, before rounding. -/
theorem RelErr.div {δ x y s t : ℚ} (hs : 0 ≤ s) (ht : 0 < t) (hd0 : 0 ≤ δ) (hd : δ ≤ 1 / 4) (hx : RelErr δ x s) (hy : RelErr δ y t) :
    RelErr (3 * δ) (x / y) (s / t) := by
  unfold RelErr at *
  rw [abs_le] at *
  have hy0 : 0 < y := by nlinarith
  have hy1 : (1 - δ) * t ≤ y := by linarith
  have hy2 : y ≤ (1 + δ) * t := by linarith
  have hx1 : (1 - δ) * s ≤ x := by linarith
  have hx2 : x ≤ (1 + δ) * s := by linarith
  have hst : 0 ≤ s / t := by positivity
  have hs' : s = s / t * t := by field_simp
  constructor
  · have : (1 - 3 * δ) * (s / t) ≤ x / y := by
      rw [le_div_iff₀ hy0]
      have h1 : (1 - 3 * δ) * (s / t) * y ≤ (1 - 3 * δ) * (s / t) * ((1 + δ) * t) :=
        mul_le_mul_of_nonneg_left hy2 (mul_nonneg (by linarith) hst)
      have h2 : (1 - 3 * δ) * (s / t) * ((1 + δ) * t) = (1 - 3 * δ) * (1 + δ) * s := by
        calc _ = (1 - 3 * δ) * (1 + δ) * (s / t * t) := by ring
          _ = _ := by rw [← hs']
      have h3 : (1 - 3 * δ) * (1 + δ) * s ≤ (1 - δ) * s :=
        mul_le_mul_of_nonneg_right (by nlinarith) hs
      linarith
    linarith
  · have : x / y ≤ (1 + 3 * δ) * (s / t) := by
      rw [div_le_iff₀ hy0]
      have h1 : (1 + 3 * δ) * (s / t) * ((1 - δ) * t) ≤ (1 + 3 * δ) * (s / t) * y :=
        mul_le_mul_of_nonneg_left hy1 (mul_nonneg (by linarith) hst)
      have h2 : (1 + 3 * δ) * (s / t) * ((1 - δ) * t) = (1 + 3 * δ) * (1 - δ) * s := by
        calc _ = (1 + 3 * δ) * (1 - δ) * (s / t * t) := by ring
          _ = _ := by rw [← hs']
      have h3 : (1 + δ) * s ≤ (1 + 3 * δ) * (1 - δ) * s :=
        mul_le_mul_of_nonneg_right (by nlinarith) hs
      linarith
    linarith

theorem fl_near (hA : Accurate) {x s ε M : ℚ} (h : |x - s| ≤ ε) (hM : |x| ≤ M) :
    |fl x - s| ≤ ε + (M / 2 ^ 53 + 1 / 2 ^ 200) := by
  have h1 := hA x
  have h2 := abs_add_le (fl x - x) (x - s)
  rw [sub_add_sub_cancel] at h2
  have h3 : |x| / 2 ^ 53 ≤ M / 2 ^ 53 := by gcongr
  linarith

/-- `_build_rsi` against the exact gains and losses: an error of at most 0.0051, half a cent of which is the final
rounding. -/
theorem buildRsi_error (hA : Accurate) {n : ℤ} (hn : 0 < n) (hn' : n ≤ 2 ^ 20) {l e : List ℚ}
    (h : List.Forall₂ ChangeOf l e) (hl : l.length ≤ 2 ^ 20) {x : ℚ} (hx : buildRsi n l = .ok x) :
    (Spec.falls e = 0 ∧ x = 100) ∨
    (0 < Spec.falls e ∧ |x - 100 * Spec.rises e / (Spec.rises e + Spec.falls e)| ≤ 51 / 10000) := by
  obtain ⟨h1, h2, h3, h4⟩ := rel_buildSums hA h hl
  have hn0 : (0 : ℚ) < n := by exact_mod_cast hn
  have hn1 : (n : ℚ) ≤ 2 ^ 20 := by exact_mod_cast hn'
  have hz : ∀ {x s : ℚ}, RelErr (1 / 2 ^ 30) x s → (s = 0 ∨ 1 / 2 ^ 60 ≤ s) → (x = 0 ↔ s = 0) := by
    intro x s hr hs
    constructor
    · intro hx
      rcases hs with hs | hs
      · exact hs
      · have := hr.pos (lt_of_lt_of_le (by positivity) hs) (by norm_num)
        linarith
    · intro hs
      unfold RelErr at hr
      rw [hs] at hr
      simpa using hr
  set G := Spec.rises e
  set L := Spec.falls e
  unfold buildRsi at hx
  simp only at hx
  split_ifs at hx with hs2 hs1
  · cases hx
    exact .inl ⟨(hz h2 h4).mp (by rw [hs2, neg_zero]), rfl⟩
  · cases hx
    have hL : 1 / 2 ^ 60 ≤ L := h4.resolve_left fun hL => hs2 (neg_eq_zero.mp ((hz h2 h4).mpr hL))
    refine .inr ⟨lt_of_lt_of_le (by positivity) hL, ?_⟩
    rw [(hz h1 h3).mp hs1]
    norm_num
  · have hL : 1 / 2 ^ 60 ≤ L := h4.resolve_left fun hL => hs2 (neg_eq_zero.mp ((hz h2 h4).mpr hL))
    have hG : 1 / 2 ^ 60 ≤ G := h3.resolve_left fun hG => hs1 ((hz h1 h3).mpr hG)
    have hL0 : 0 < L := lt_of_lt_of_le (by positivity) hL
    have hG0 : 0 < G := lt_of_lt_of_le (by positivity) hG
    refine .inr ⟨hL0, ?_⟩
    simp only [bind, Except.bind] at hx
    split at hx
    · cases hx
    rename_i pa hpa
    split at hx
    · cases hx
    rename_i na hna
    split at hx
    · cases hx
    rename_i rs hrs
    split at hx
    · cases hx
    rename_i d hd
    cases hx
    obtain ⟨-, rfl⟩ := pyDiv_ok hpa
    obtain ⟨-, rfl⟩ := pyDiv_ok hna
    obtain ⟨-, rfl⟩ := pyDiv_ok hrs
    obtain ⟨-, rfl⟩ := pyDiv_ok hd
    -- the two means
    have hmean : ∀ {x s : ℚ}, RelErr (1 / 2 ^ 30) x s → 1 / 2 ^ 60 ≤ s → RelErr (1 / 2 ^ 29) (fl (x / n)) (s / n) := by
      intro x s hr hs
      have hs0 : 0 < s := lt_of_lt_of_le (by positivity) hs
      have a1 : RelErr (1 / 2 ^ 30) (x / n) (s / n) := by
        unfold RelErr at *
        rw [← sub_div, abs_div, abs_of_pos hn0, ← mul_div_assoc]
        gcongr
      have a2 : 1 / 2 ^ 140 ≤ s / n := by
        rw [le_div_iff₀ hn0]
        have : (1 : ℚ) / 2 ^ 140 * n ≤ 1 / 2 ^ 140 * 2 ^ 20 := by gcongr
        have : (1 : ℚ) / 2 ^ 140 * 2 ^ 20 ≤ 1 / 2 ^ 60 := by norm_num
        linarith
      exact (RelErr.fl hA a2 (by norm_num) (by norm_num) a1).mono (by positivity) (by norm_num)
    have hp := hmean h1 hG
    have hq := hmean h2 hL
    have hna' : |fdiv (buildSums l).2 n| = fl (-(buildSums l).2 / n) := by
      have e1 : fdiv (buildSums l).2 n = - fl (-(buildSums l).2 / n) := by
        unfold fdiv
        rw [← fl_neg]
        congr 1
        ring
      rw [e1, abs_neg, abs_of_pos (hq.pos (by positivity) (by norm_num))]
    rw [hna']
    set p := fdiv (buildSums l).1 n
    set q := fl (-(buildSums l).2 / n)
    set ρ := G / L with hρ
    have hρ0 : 0 < ρ := by positivity
    have hraw : RelErr (3 * (1 / 2 ^ 29)) (p / q) ρ := by
      have := RelErr.div (by positivity) (by positivity) (by norm_num) (by norm_num) hp hq
      rwa [div_div_div_cancel_right₀ hn0.ne'] at this
    have hrs' : |fdiv p q - ρ| ≤ 3 * (1 / 2 ^ 29) * ρ + (2 * ρ / 2 ^ 53 + 1 / 2 ^ 200) := by
      refine fl_near hA hraw ?_
      unfold RelErr at hraw
      have := abs_add_le (p / q - ρ) ρ
      rw [sub_add_cancel, abs_of_pos hρ0] at this
      nlinarith
    have hone : RelErr (1 / 2 ^ 27) (1 + fdiv p q) (1 + ρ) := by
      unfold RelErr
      rw [add_sub_add_left_eq_sub]
      refine hrs'.trans ?_
      have e1 : 3 * (1 / 2 ^ 29) * ρ + 2 * ρ / 2 ^ 53 ≤ 1 / 2 ^ 27 * ρ := by
        have : 3 * (1 / 2 ^ 29) * ρ + 2 * ρ / 2 ^ 53 = (3 * (1 / 2 ^ 29) + 2 / 2 ^ 53) * ρ := by ring
        rw [this]
        exact mul_le_mul_of_nonneg_right (by norm_num) hρ0.le
      have e2 : (1 : ℚ) / 2 ^ 200 ≤ 1 / 2 ^ 27 := by norm_num
      rw [mul_add]
      linarith
    have hy : RelErr (1 / 2 ^ 26) (fadd 1 (fdiv p q)) (1 + ρ) := by
      have h140 : (1 : ℚ) / 2 ^ 140 ≤ 1 := by norm_num
      exact (RelErr.fl hA (by linarith) (by norm_num) (by norm_num) hone).mono (by linarith) (by norm_num)
    set y := fadd 1 (fdiv p q)
    set T := 100 / (1 + ρ) with hT
    have hT0 : 0 ≤ T := by positivity
    have hT1 : T ≤ 100 := by
      rw [hT, div_le_iff₀ (by linarith)]
      linarith
    have hdiv : |100 / y - T| ≤ 300 / 2 ^ 26 := by
      have : RelErr (3 * (1 / 2 ^ 26)) (100 / y) T :=
        RelErr.div (by norm_num) (by linarith) (by norm_num) (by norm_num) (by unfold RelErr; norm_num) hy
      unfold RelErr at this
      refine this.trans ?_
      linarith
    have hd' : |fdiv 100 y - T| ≤ 300 / 2 ^ 26 + (200 / 2 ^ 53 + 1 / 2 ^ 200) := by
      refine fl_near hA hdiv ?_
      have := abs_add_le (100 / y - T) T
      rw [sub_add_cancel, abs_of_nonneg hT0] at this
      have e : (300 : ℚ) / 2 ^ 26 ≤ 1 := by norm_num
      linarith
    have hsub : |100 - fdiv 100 y - (100 - T)| ≤ 300 / 2 ^ 26 + (200 / 2 ^ 53 + 1 / 2 ^ 200) := by
      rw [abs_sub_comm, sub_sub_sub_cancel_left]
      exact hd'
    have hz' : |fsub 100 (fdiv 100 y) - (100 - T)| ≤
        300 / 2 ^ 26 + (200 / 2 ^ 53 + 1 / 2 ^ 200) + (200 / 2 ^ 53 + 1 / 2 ^ 200) := by
      refine fl_near hA hsub ?_
      have := abs_add_le (100 - fdiv 100 y - (100 - T)) (100 - T)
      rw [sub_add_cancel, abs_of_nonneg (by linarith : 0 ≤ 100 - T)] at this
      have e : (300 : ℚ) / 2 ^ 26 + (200 / 2 ^ 53 + 1 / 2 ^ 200) ≤ 1 := by norm_num
      linarith
    set z := fsub 100 (fdiv 100 y)
    have hc : |cent z - (100 - T)| ≤
        1 / 200 + (300 / 2 ^ 26 + (200 / 2 ^ 53 + 1 / 2 ^ 200) + (200 / 2 ^ 53 + 1 / 2 ^ 200)) := by
      have := abs_add_le (cent z - z) (z - (100 - T))
      rw [sub_add_sub_cancel] at this
      have h5 := cent_abs z
      rw [abs_sub_comm] at h5
      linarith
    have hr : |rnd z - (100 - T)| ≤ 51 / 10000 := by
      refine (fl_near hA hc (M := 200) ?_).trans (by norm_num)
      have := abs_add_le (cent z - (100 - T)) (100 - T)
      rw [sub_add_cancel, abs_of_nonneg (by linarith : 0 ≤ 100 - T)] at this
      have e : (1 : ℚ) / 200 + (300 / 2 ^ 26 + (200 / 2 ^ 53 + 1 / 2 ^ 200) + (200 / 2 ^ 53 + 1 / 2 ^ 200)) ≤ 1 := by
        norm_num
      linarith
    have hideal : 100 * G / (G + L) = 100 - T := by
      rw [hT, hρ]
      field_simp
      ring
    rw [hideal]
    exact hr

end Estrade
