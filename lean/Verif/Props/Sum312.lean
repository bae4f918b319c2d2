import Verif.Sum312
import Verif.Props.Lots
import Verif.Indicators
import Verif.Lemmas.Range

/-!
# C118: the versions of Python
-/

set_option linter.style.haveILetI false
set_option linter.unusedSectionVars false
set_option autoImplicit false

namespace Estrade

section
variable [Arith]

/-! ## Specification -/

/-- Spec: C118 for the floats that are `ok`: every version of Python computes the same sum. -/
def Spec.C118 (ok : List ℚ → Prop) : Prop := ∀ l, ok l → sum312 l = fsum l

/-- Spec: C118 for the floats that are `ok`, for sums that are rounded to cents. -/
def Spec.C118_cents (ok : List ℚ → Prop) : Prop := ∀ l, ok l → rnd (sum312 l) = rnd (fsum l)

/-- Spec: multiples of a unit, not too large together. -/
def Spec.SumInUnits (u : ℚ) (l : List ℚ) : Prop := ∃ ns : List ℕ, ns.sum ≤ 2 ^ 53 ∧ l = ns.map (fun n : ℕ => (n : ℚ) * u)

/-- Spec: the floats of at most 2^10 amounts in cents, of at most 2^29 together. -/
def Spec.CentSum (l : List ℚ) : Prop :=
  ∃ s : List ℚ, (∀ x ∈ s, IsCent x) ∧ s.length ≤ 2 ^ 10 ∧ (s.map (fun x => |x|)).sum ≤ 2 ^ 29 ∧ l = s.map fl

/-! ## Proofs -/

theorem neuStep_exact (hx : Exact) (l : List ℚ) : ∀ s : ℚ, l.foldl neuStep (s, 0) = (s + l.sum, 0) := by
  induction l with
  | nil => intro s; simp
  | cons x l ih =>
    intro s
    have : neuStep (s, 0) x = (s + x, 0) := by
      unfold neuStep fadd fsub
      simp only [hx _]
      split_ifs <;> simp
    rw [List.foldl_cons, this, ih, List.sum_cons, add_assoc]

/-- **C118** with exact arithmetic. -/
theorem C118_exact (hx : Exact) : Spec.C118 (fun _ => True) := by
  intro l _
  rw [fsum_exact hx]
  cases l with
  | nil => rfl
  | cons x l =>
    unfold sum312
    simp only [neuStep_exact hx, fadd, hx _, if_true, List.sum_cons]
    ring

theorem neuStep_units {u : ℚ} (hu : Spec.Unit u) (ns : List ℕ) : ∀ a : ℕ, a + ns.sum ≤ 2 ^ 53 →
    (ns.map (fun n : ℕ => (n : ℚ) * u)).foldl neuStep ((a : ℚ) * u, 0) = (((a + ns.sum : ℕ) : ℚ) * u, 0) ∧
    (ns.map (fun n : ℕ => (n : ℚ) * u)).foldl fadd ((a : ℚ) * u) = ((a + ns.sum : ℕ) : ℚ) * u := by
  induction ns with
  | nil => intro a _; simp
  | cons n ns ih =>
    intro a h
    rw [List.sum_cons] at h
    have hun : ∀ k : ℕ, k ≤ 2 ^ 53 → fl ((k : ℚ) * u) = k * u ∧ fl (-((k : ℚ) * u)) = -(k * u) := by
      intro k hk
      have := hu.2 (k : ℤ) (by rw [Nat.abs_cast]; exact_mod_cast hk)
      rw [Int.cast_natCast] at this
      exact ⟨this, by rw [Arith.neg, this]⟩
    have hadd : fadd ((a : ℚ) * u) (n * u) = ((a + n : ℕ) : ℚ) * u := by
      unfold fadd
      rw [← add_mul, ← Nat.cast_add]
      exact (hun (a + n) (by omega)).1
    have hz : fl (0 : ℚ) = 0 := fl_zero
    have hstep : neuStep ((a : ℚ) * u, 0) (n * u) = (((a + n : ℕ) : ℚ) * u, 0) := by
      unfold neuStep
      simp only [hadd]
      have e1 : fsub ((a : ℚ) * u) (((a + n : ℕ) : ℚ) * u) = -(n * u) := by
        unfold fsub
        rw [show (a : ℚ) * u - ((a + n : ℕ) : ℚ) * u = -((n : ℚ) * u) by push_cast; ring]
        exact (hun n (by omega)).2
      have e2 : fsub ((n : ℚ) * u) (((a + n : ℕ) : ℚ) * u) = -(a * u) := by
        unfold fsub
        rw [show (n : ℚ) * u - ((a + n : ℕ) : ℚ) * u = -((a : ℚ) * u) by push_cast; ring]
        exact (hun a (by omega)).2
      rw [e1, e2]
      unfold fadd
      simp [hz]
    obtain ⟨i1, i2⟩ := ih (a + n) (by omega)
    simp only [List.map_cons, List.foldl_cons, List.sum_cons]
    rw [hstep, hadd, i1, i2, Nat.add_assoc]
    exact ⟨rfl, rfl⟩

/-- **C118** for multiples of a unit: both sums are exact. -/
theorem C118_units_partial {u : ℚ} (hu : Spec.Unit u) : Spec.C118 (Spec.SumInUnits u) ∧
    ∀ ns : List ℕ, ns.sum ≤ 2 ^ 53 → sum312 (ns.map (fun n : ℕ => (n : ℚ) * u)) = (ns.sum : ℕ) * u := by
  have key : ∀ ns : List ℕ, ns.sum ≤ 2 ^ 53 → sum312 (ns.map (fun n : ℕ => (n : ℚ) * u)) = (ns.sum : ℕ) * u ∧
      fsum (ns.map (fun n : ℕ => (n : ℚ) * u)) = (ns.sum : ℕ) * u := by
    intro ns hs
    have h2 := (neuStep_units hu ns 0 (by omega)).2
    rw [Nat.cast_zero, zero_mul, Nat.zero_add] at h2
    refine ⟨?_, h2⟩
    cases ns with
    | nil => simp [sum312]
    | cons n ns =>
      rw [List.sum_cons] at hs
      have hf : fadd 0 ((n : ℚ) * u) = n * u := by
        unfold fadd
        rw [zero_add]
        have := hu.2 (n : ℤ) (by rw [Nat.abs_cast]; have : n ≤ 2 ^ 53 := by omega
                                 exact_mod_cast this)
        rwa [Int.cast_natCast] at this
      simp only [List.map_cons, sum312, hf, (neuStep_units hu ns n hs).1, if_true, List.sum_cons]
  refine ⟨?_, fun ns hs => (key ns hs).1⟩
  rintro l ⟨ns, hs, rfl⟩
  rw [(key ns hs).1, (key ns hs).2]

/-- The state of the loop after `m` floats of the sum `σ`. -/
def NeuInv (S : ℚ) (m : ℕ) (p : ℚ × ℚ) (σ : ℚ) : Prop := Apx S m p.1 σ ∧ |p.2| ≤ 4 * m * (S / 2 ^ 51)

theorem fl_small (hA : Accurate) {S x : ℚ} {k : ℚ} (hS : 1 ≤ S) (h : |x| ≤ k * (S / 2 ^ 51)) (hk : k ≤ 2 ^ 51) :
    |fl x| ≤ (k + 1) * (S / 2 ^ 51) := by
  have h1 : |x| ≤ 2 * S := by
    have : k * (S / 2 ^ 51) ≤ 2 ^ 51 * (S / 2 ^ 51) := mul_le_mul_of_nonneg_right hk (by positivity)
    have e : (2 : ℚ) ^ 51 * (S / 2 ^ 51) = S := by ring
    linarith
  have h2 := fl_err2 hA hS h1
  have h3 := abs_add_le (fl x - x) x
  rw [sub_add_cancel] at h3
  linarith [add_mul k 1 (S / 2 ^ 51)]

theorem compensation_small (hA : Accurate) {S a b : ℚ} (hS : 1 ≤ S) (hab : |a + b| ≤ 2 * S)
    (hb' : |b| ≤ 3 / 2 * S) : |fadd (fsub a (fadd a b)) b| ≤ 3 * (S / 2 ^ 51) := by
  have e0 : 0 ≤ S / 2 ^ 51 := by positivity
  have e1 : S / 2 ^ 51 ≤ S / 2 := by
    apply div_le_div_of_nonneg_left (by linarith) (by norm_num) (by norm_num)
  have h1 := abs_le.mp (fl_err2 hA hS hab)
  have h2 : |a - fl (a + b)| ≤ 2 * S := by
    have := abs_le.mp hb'
    rw [abs_le]
    constructor <;> linarith
  have h3 := abs_le.mp (fl_err2 hA hS h2)
  have h4 : |fl (a - fl (a + b)) + b| ≤ 2 * (S / 2 ^ 51) := by
    rw [abs_le]
    constructor <;> linarith
  have h5 := fl_small hA hS h4 (by norm_num)
  unfold fadd fsub
  linarith

theorem NeuInv.step (hA : Accurate) {S : ℚ} (hS : 1 ≤ S) {m : ℕ} {p : ℚ × ℚ} {σ x : ℚ} (h : NeuInv S m p σ) (hx : |x| ≤ S) (hσ : |σ + x| ≤ S)
    (hm : m + 1 ≤ 2 ^ 40) : NeuInv S (m + 1) (neuStep p x) (σ + x) := by
  obtain ⟨h1, h2⟩ := h
  have hm' : (m : ℚ) + 1 ≤ 2 ^ 40 := by exact_mod_cast hm
  have e0 : 0 ≤ S / 2 ^ 51 := by positivity
  have hsm : (m : ℚ) * (S / 2 ^ 51) ≤ 1 / 2 * S := by
    have : (m : ℚ) * (S / 2 ^ 51) ≤ 2 ^ 40 * (S / 2 ^ 51) := mul_le_mul_of_nonneg_right (by linarith) e0
    have e : (2 : ℚ) ^ 40 * (S / 2 ^ 51) ≤ 1 / 2 * S := by
      rw [show (2 : ℚ) ^ 40 * (S / 2 ^ 51) = S * (2 ^ 40 / 2 ^ 51) by ring]
      have : (2 : ℚ) ^ 40 / 2 ^ 51 ≤ 1 / 2 := by norm_num
      nlinarith
    linarith
  have hs : |p.1| ≤ 3 / 2 * S := by
    have := abs_add_le (p.1 - σ) σ
    rw [sub_add_cancel] at this
    linarith [h1.near, h1.size]
  have hsx : |p.1 + x| ≤ 2 * S := by
    have := abs_add_le (p.1 - σ) (σ + x)
    rw [show p.1 - σ + (σ + x) = p.1 + x by ring] at this
    linarith [h1.near]
  have hadd := Apx.add hA hS h1 (⟨by simp, hx⟩ : Apx S 0 x x) hσ (by omega)
  refine ⟨hadd, ?_⟩
  have hc : |if |x| ≤ |p.1| then fadd (fsub p.1 (fadd p.1 x)) x else fadd (fsub x (fadd p.1 x)) p.1| ≤ 3 * (S / 2 ^ 51) := by
    split_ifs
    · exact compensation_small hA hS hsx (by linarith)
    · have : fadd p.1 x = fadd x p.1 := by unfold fadd; rw [add_comm]
      rw [this]
      exact compensation_small hA hS (by rwa [add_comm]) hs
  have hsum : |p.2 + (if |x| ≤ |p.1| then fadd (fsub p.1 (fadd p.1 x)) x else fadd (fsub x (fadd p.1 x)) p.1)| ≤ (4 * m + 3) * (S / 2 ^ 51) := by
    refine (abs_add_le _ _).trans ?_
    linarith [add_mul (4 * (m : ℚ)) 3 (S / 2 ^ 51)]
  have := fl_small hA hS hsum (by
    have : (4 : ℚ) * 2 ^ 40 + 3 ≤ 2 ^ 51 := by norm_num
    linarith)
  refine this.trans (le_of_eq ?_)
  push_cast
  ring

theorem NeuInv.foldl (hA : Accurate) {S : ℚ} (hS : 1 ≤ S) (l : List ℚ) : ∀ {m : ℕ} {p : ℚ × ℚ} {σ : ℚ}, NeuInv S m p σ →
    |σ| + (l.map (fun x => |x|)).sum ≤ S → m + l.length ≤ 2 ^ 40 → NeuInv S (m + l.length) (l.foldl neuStep p) (σ + l.sum) := by
  induction l with
  | nil => intro m p σ h _ _; simpa using h
  | cons x l ih =>
    intro m p σ h hs hm
    simp only [List.map_cons, List.sum_cons, List.length_cons, List.foldl_cons] at hs hm ⊢
    have hnn : 0 ≤ (l.map (fun x => |x|)).sum :=
      List.sum_nonneg (by intro y hy; obtain ⟨z, -, rfl⟩ := List.mem_map.mp hy; exact abs_nonneg _)
    have h1 := abs_add_le σ x
    have h2 := abs_nonneg σ
    have := ih (h.step hA hS (x := x) (by linarith) (by linarith) (by omega)) (by linarith) (by omega)
    rw [show m + (l.length + 1) = m + 1 + l.length by omega, ← add_assoc]
    exact this

theorem Apx.sum312 (hA : Accurate) {S : ℚ} (hS : 1 ≤ S) (l : List ℚ) (hs : (l.map (fun x => |x|)).sum ≤ S) (hn : l.length ≤ 2 ^ 40) :
    Apx S (5 * l.length + 1) (Estrade.sum312 l) l.sum := by
  cases l with
  | nil => exact (Apx.zero hS).mono (by omega)
  | cons x l =>
    simp only [List.map_cons, List.sum_cons, List.length_cons] at hs hn
    have hnn : 0 ≤ (l.map (fun x => |x|)).sum :=
      List.sum_nonneg (by intro y hy; obtain ⟨z, -, rfl⟩ := List.mem_map.mp hy; exact abs_nonneg _)
    have e0 : 0 ≤ S / 2 ^ 51 := by positivity
    have h0 : NeuInv S 1 (fadd 0 x, 0) x := by
      refine ⟨?_, by simp; positivity⟩
      unfold fadd
      rw [zero_add]
      exact Apx.fl hA hS (by linarith)
    have h := h0.foldl hA hS l (by linarith) (by omega)
    obtain ⟨h1, h2⟩ := h
    have hsz := h1.size
    have hnear := h1.near
    simp only [Estrade.sum312, List.sum_cons, List.length_cons]
    set p := l.foldl neuStep (fadd 0 x, 0)
    have hN : ((1 + l.length : ℕ) : ℚ) ≤ 2 ^ 40 := by exact_mod_cast (by omega : 1 + l.length ≤ 2 ^ 40)
    split_ifs with hc
    · exact h1.mono (by omega)
    · refine ⟨?_, hsz⟩
      have h3 : |p.1 + p.2 - (x + l.sum)| ≤ 5 * ((1 + l.length : ℕ) : ℚ) * (S / 2 ^ 51) := by
        have := abs_add_le (p.1 - (x + l.sum)) p.2
        rw [show p.1 - (x + l.sum) + p.2 = p.1 + p.2 - (x + l.sum) by ring] at this
        linarith
      have h4 : |p.1 + p.2| ≤ 2 * S := by
        have := abs_add_le (p.1 + p.2 - (x + l.sum)) (x + l.sum)
        rw [sub_add_cancel] at this
        have e : 5 * ((1 + l.length : ℕ) : ℚ) * (S / 2 ^ 51) ≤ S := by
          have : 5 * ((1 + l.length : ℕ) : ℚ) * (S / 2 ^ 51) ≤ 5 * 2 ^ 40 * (S / 2 ^ 51) := mul_le_mul_of_nonneg_right (by linarith) e0
          have e : 5 * (2 : ℚ) ^ 40 * (S / 2 ^ 51) ≤ S := by
            rw [show 5 * (2 : ℚ) ^ 40 * (S / 2 ^ 51) = S * (5 * 2 ^ 40 / 2 ^ 51) by ring]
            have : 5 * (2 : ℚ) ^ 40 / 2 ^ 51 ≤ 1 := by norm_num
            nlinarith
          linarith
        linarith
      have h5 := fl_err2 hA hS h4
      have h6 := abs_add_le (Arith.fl (p.1 + p.2) - (p.1 + p.2)) (p.1 + p.2 - (x + l.sum))
      rw [sub_add_sub_cancel] at h6
      unfold fadd
      refine h6.trans ?_
      push_cast at *
      linarith

/-- Both sums are near the sum of the floats: within 5n+1 and n times 2^-51 of the size of the floats together. -/
theorem C118_near (hA : Accurate) {S : ℚ} (hS : 1 ≤ S) (l : List ℚ) (hs : (l.map (fun x => |x|)).sum ≤ S) (hn : l.length ≤ 2 ^ 40) :
    |sum312 l - l.sum| ≤ (5 * l.length + 1) * (S / 2 ^ 51) ∧ |fsum l - l.sum| ≤ l.length * (S / 2 ^ 51) := by
  constructor
  · have := (Apx.sum312 hA hS l hs hn).near
    push_cast at this
    exact this
  · have hone : ∀ x ∈ l, |x| ≤ S := by
      intro x hx
      have := List.single_le_sum (l := l.map (fun x => |x|)) (by
        intro y hy; obtain ⟨z, -, rfl⟩ := List.mem_map.mp hy; exact abs_nonneg _) _ (List.mem_map.mpr ⟨x, hx, rfl⟩)
      linarith
    have hk : (l.map (fun _ : ℚ => 0 + 1)).sum = l.length := by simp
    have := Apx.foldl hA hS (fun x : ℚ => x) (fun x => x) (fun _ => 0) l 0 0 0 (Apx.zero hS) (fun x hx => ⟨by simp, hone x hx⟩)
      (by rw [abs_zero, zero_add]; exact hs) (by rw [hk]; omega)
    have h2 := this.near
    rw [hk] at h2
    simpa [fsum] using h2

theorem sum_fl_near (hA : Accurate) {S : ℚ} (hS : 1 ≤ S) (s : List ℚ) (h : ∀ x ∈ s, |x| ≤ 2 * S) : |(s.map fl).sum - s.sum| ≤ s.length * (S / 2 ^ 51) := by
  induction s with
  | nil => simp
  | cons x s ih =>
    have h1 := fl_err2 hA hS (h x (by simp))
    have h2 := ih (fun y hy => h y (by simp [hy]))
    simp only [List.map_cons, List.sum_cons, List.length_cons]
    push_cast
    rw [abs_le] at *
    constructor <;> linarith

/-- **C118** for amounts in cents within a range, rounded to cents: every version of Python gives the float of the sum. -/
theorem C118_cents_partial (hA : Accurate) : Spec.C118_cents Spec.CentSum ∧
    ∀ s : List ℚ, (∀ x ∈ s, IsCent x) → s.length ≤ 2 ^ 10 → (s.map (fun x => |x|)).sum ≤ 2 ^ 29 → rnd (sum312 (s.map fl)) = fl s.sum := by
  have key : ∀ s : List ℚ, (∀ x ∈ s, IsCent x) → s.length ≤ 2 ^ 10 → (s.map (fun x => |x|)).sum ≤ 2 ^ 29 →
      rnd (sum312 (s.map fl)) = fl s.sum ∧ rnd (fsum (s.map fl)) = fl s.sum := by
    intro s hc hn hs
    have hn' : (s.length : ℚ) ≤ 2 ^ 10 := by exact_mod_cast hn
    have hone : ∀ x ∈ s, |x| ≤ 2 ^ 29 := by
      intro x hx
      have := List.single_le_sum (l := s.map (fun x => |x|)) (by
        intro y hy; obtain ⟨z, -, rfl⟩ := List.mem_map.mp hy; exact abs_nonneg _) _ (List.mem_map.mpr ⟨x, hx, rfl⟩)
      linarith
    have hcs : IsCent s.sum := by
      clear hn hs hone hn'
      induction s with
      | nil => exact isCent_zero
      | cons x s ih => rw [List.sum_cons]; exact (hc x (by simp)).add (ih (fun y hy => hc y (by simp [hy])))
    have hsz : ((s.map fl).map (fun x => |x|)).sum ≤ 2 ^ 30 := by
      have : ∀ l : List ℚ, (∀ x ∈ l, |x| ≤ 2 ^ 29) → ((l.map fl).map (fun x => |x|)).sum ≤ (l.map (fun x => |x|)).sum + l.length * (2 ^ 29 / 2 ^ 51) := by
        intro l hl
        induction l with
        | nil => simp
        | cons x l ih =>
          have h1 := fl_err2 hA (S := 2 ^ 29) (x := x) (by norm_num) (by linarith [hl x (by simp)])
          have h2 := abs_add_le (fl x - x) x
          rw [sub_add_cancel] at h2
          have h3 := ih (fun y hy => hl y (by simp [hy]))
          simp only [List.map_cons, List.sum_cons, List.length_cons]
          push_cast
          linarith
      have h1 := this s hone
      have h2 : (s.length : ℚ) * (2 ^ 29 / 2 ^ 51) ≤ 2 ^ 10 * (2 ^ 29 / 2 ^ 51) := mul_le_mul_of_nonneg_right hn' (by norm_num)
      have e : (2 : ℚ) ^ 29 + 2 ^ 10 * (2 ^ 29 / 2 ^ 51) ≤ 2 ^ 30 := by norm_num
      linarith
    obtain ⟨h1, h2⟩ := C118_near hA (S := 2 ^ 30) (by norm_num) (s.map fl) hsz (by rw [List.length_map]; omega)
    rw [List.length_map] at h1 h2
    have h3 := sum_fl_near hA (S := 2 ^ 30) (by norm_num) s (fun x hx => (hone x hx).trans (by norm_num))
    have fin : ∀ y : ℚ, |y - (s.map fl).sum| ≤ (5 * (s.length : ℚ) + 1) * (2 ^ 30 / 2 ^ 51) → rnd y = fl s.sum := by
      intro y hy
      unfold rnd
      rw [cent_of_near hcs]
      have h6 := abs_add_le (y - (s.map fl).sum) ((s.map fl).sum - s.sum)
      rw [sub_add_sub_cancel] at h6
      have h7 : (5 * (s.length : ℚ) + 1) * (2 ^ 30 / 2 ^ 51) + s.length * (2 ^ 30 / 2 ^ 51) ≤ (6 * 2 ^ 10 + 1) * (2 ^ 30 / 2 ^ 51) := by
        rw [← add_mul]
        apply mul_le_mul_of_nonneg_right _ (by norm_num)
        linarith
      have h8 : (6 * (2 : ℚ) ^ 10 + 1) * (2 ^ 30 / 2 ^ 51) < 1 / 200 := by norm_num
      linarith
    refine ⟨fin _ h1, fin _ (h2.trans ?_)⟩
    apply mul_le_mul_of_nonneg_right _ (by norm_num)
    have : (0 : ℚ) ≤ s.length := Nat.cast_nonneg _
    linarith
  refine ⟨?_, fun s h1 h2 h3 => (key s h1 h2 h3).1⟩
  rintro l ⟨s, h1, h2, h3, rfl⟩
  rw [(key s h1 h2 h3).1, (key s h1 h2 h3).2]

/-- The results of the closes of a trade in the versions of Python are near each other. -/
theorem C118_closed_result (hA : Accurate) {S : ℚ} (hS : 1 ≤ S) (t : Trade) (hn : t.closes.length ≤ 2 ^ 40)
    (hs : (t.closes.map (fun c => |closeResult t.dir t.openValue c|)).sum ≤ S) :
    |t.closedResult312 - t.closedResult| ≤ (6 * t.closes.length + 1) * (S / 2 ^ 51) := by
  obtain ⟨h1, h2⟩ := C118_near hA hS (t.closes.map (closeResult t.dir t.openValue)) (by simpa [Function.comp_def] using hs) (by simpa using hn)
  rw [List.length_map] at h1 h2
  unfold Trade.closedResult312 Trade.closedResult
  rw [abs_le] at *
  constructor <;> linarith

/-- What the indicator gives in earlier versions: the `smaOld` of the last closes. -/
theorem C118_sma_model (heap : List Frame) (v : IndVal) (f : Frame) (periods : ℕ) (hp : 1 ≤ periods) (hf : v.parent heap = some f)
    (hl : periods ≤ (extendedCloses v f).length) :
    smaGet heap v periods = .ok (some (smaOld ((extendedCloses v f).drop ((extendedCloses v f).length - periods)))) := by
  have e : sliceFrom (extendedCloses v f) ((periods : ℤ) * -1) = (extendedCloses v f).drop ((extendedCloses v f).length - periods) := by
    unfold sliceFrom
    rw [if_neg (by omega)]
    congr 2
    omega
  have hlen : ((extendedCloses v f).drop ((extendedCloses v f).length - periods)).length = periods := by
    rw [List.length_drop]; omega
  have hpq : ((periods : ℤ) : ℚ) ≠ 0 := by
    have : (periods : ℤ) ≠ 0 := by omega
    exact_mod_cast this
  unfold smaGet smaOld
  simp only [hf, hlen, e]
  rw [if_neg (by omega), pyDiv, if_neg hpq]
  rfl

theorem rhe_close {x y : ℚ} (h : |x - y| < 1) : |rhe x - rhe y| ≤ 1 := by
  have h1 := abs_le.mp (rhe_abs x)
  have h2 := abs_le.mp (rhe_abs y)
  have h3 := abs_lt.mp h
  have a1 : (rhe x : ℚ) - rhe y < 2 := by linarith
  have a2 : (-2 : ℚ) < (rhe x : ℚ) - rhe y := by linarith
  have b1 : rhe x - rhe y < 2 := by exact_mod_cast a1
  have b2 : -2 < rhe x - rhe y := by exact_mod_cast a2
  rw [abs_le]
  constructor <;> omega

/-- Simple moving averages in the versions of Python are at most one cent apart, for up to 2^10 closes of up to 2^30 together. -/
theorem C118_sma_near_partial (hA : Accurate) (l : List ℚ) (h0 : l ≠ []) (hn : l.length ≤ 2 ^ 10) (hs : (l.map (fun x => |x|)).sum ≤ 2 ^ 30) :
    ∃ a b : ℤ, sma312 l = fl (a / 100) ∧ smaOld l = fl (b / 100) ∧ |a - b| ≤ 1 := by
  refine ⟨_, _, rfl, rfl, rhe_close ?_⟩
  obtain ⟨h1, h2⟩ := C118_near hA (S := 2 ^ 30) (by norm_num) l hs (by omega)
  have hn' : (l.length : ℚ) ≤ 2 ^ 10 := by exact_mod_cast hn
  have hn1 : (1 : ℚ) ≤ l.length := by exact_mod_cast List.length_pos_of_ne_nil h0
  have hsum : |l.sum| ≤ 2 ^ 30 := by
    refine le_trans ?_ hs
    have : ∀ l : List ℚ, |l.sum| ≤ (l.map (fun x => |x|)).sum := by
      intro l
      induction l with
      | nil => simp
      | cons x l ih =>
        simp only [List.map_cons, List.sum_cons]
        exact (abs_add_le _ _).trans (by linarith)
    exact this l
  have k1 : (5 * (l.length : ℚ) + 1) * (2 ^ 30 / 2 ^ 51) ≤ (5 * 2 ^ 10 + 1) * (2 ^ 30 / 2 ^ 51) := mul_le_mul_of_nonneg_right (by linarith) (by norm_num)
  have k2 : (l.length : ℚ) * (2 ^ 30 / 2 ^ 51) ≤ 2 ^ 10 * (2 ^ 30 / 2 ^ 51) := mul_le_mul_of_nonneg_right hn' (by norm_num)
  have e1 : (5 * (2 : ℚ) ^ 10 + 1) * (2 ^ 30 / 2 ^ 51) ≤ 1 / 400 := by norm_num
  have e2 : (2 : ℚ) ^ 10 * (2 ^ 30 / 2 ^ 51) ≤ 1 / 400 := by norm_num
  have key : ∀ y : ℚ, |y - l.sum| ≤ 1 / 400 → |fdiv y l.length - l.sum / l.length| ≤ 1 / 400 + 1 / 1000 := by
    intro y hy
    have hdiv : |y / l.length - l.sum / l.length| ≤ 1 / 400 := by
      rw [← sub_div, abs_div, abs_of_pos (by linarith : (0 : ℚ) < l.length)]
      exact (div_le_self (abs_nonneg _) hn1).trans hy
    have hq : |y / l.length| ≤ 2 ^ 31 := by
      rw [abs_div, abs_of_pos (by linarith : (0 : ℚ) < l.length)]
      refine (div_le_self (abs_nonneg _) hn1).trans ?_
      have := abs_add_le (y - l.sum) l.sum
      rw [sub_add_cancel] at this
      have e : (1 : ℚ) / 400 + 2 ^ 30 ≤ 2 ^ 31 := by norm_num
      linarith
    have h3 := hA (y / l.length)
    have h4 : |y / l.length| / 2 ^ 53 ≤ 2 ^ 31 / 2 ^ 53 := div_le_div_of_nonneg_right hq (by norm_num)
    have e : (2 : ℚ) ^ 31 / 2 ^ 53 + 1 / 2 ^ 200 ≤ 1 / 1000 := by norm_num
    unfold fdiv
    have h5 := abs_add_le (fl (y / l.length) - y / l.length) (y / l.length - l.sum / l.length)
    rw [sub_add_sub_cancel] at h5
    linarith
  have a1 := abs_le.mp (key _ (h1.trans (k1.trans e1)))
  have a2 := abs_le.mp (key _ (h2.trans (k2.trans e2)))
  rw [abs_lt]
  constructor <;> linarith

end

/-- C118 is false of other floats: the trade of 0.8 of C116, closed by tenths, is open in earlier versions and closed since 3.12. -/
theorem C118_tenths_false :
    letI := Arith.binary64
    sum312 (List.replicate 8 (fl (1 / 10))) = fl (8 / 10) ∧ fsum (List.replicate 8 (fl (1 / 10))) < fl (8 / 10) ∧
      ∀ d v, ((Lot.new d (fl (8 / 10)) v).run Demo.tenths).openedQty312 = 0 ∧ ((Lot.new d (fl (8 / 10)) v).run Demo.tenths).openedQty ≠ 0 := by
  letI := Arith.binary64
  refine ⟨by decide +kernel, by decide +kernel, fun d v => ⟨?_, ?_⟩⟩
  · change ((Lot.new .buy (fl (8 / 10)) 0).run Demo.tenths).openedQty312 = 0
    decide +kernel
  · rw [(C116_tenths_false.2.2 d v).1]
    norm_num

/-- The closes 0.07, 0.24, 0.08 and 0.19. -/
def Demo.fourCloses : List ℚ := [fl64 (7 / 100), fl64 (24 / 100), fl64 (8 / 100), fl64 (19 / 100)]

/-- A simple moving average depends on the version of Python: 0.15 before 3.12, 0.14 since. -/
theorem C118_sma_false :
    letI := Arith.binary64
    smaOld Demo.fourCloses = fl (15 / 100) ∧ sma312 Demo.fourCloses = fl (14 / 100) ∧ fl (14 / 100) ≠ fl (15 / 100) := by
  letI := Arith.binary64
  refine ⟨?_, ?_, ?_⟩ <;> decide +kernel

/-- Sums that cancel can differ by all there is: 2 since 3.12, 0 before. -/
theorem C118_cancel_false :
    letI := Arith.binary64
    sum312 [1, 2 ^ 60, 1, -2 ^ 60] = 2 ∧ fsum [1, 2 ^ 60, 1, -2 ^ 60] = 0 ∧ sum312 [-2 ^ 60, 1, 2 ^ 60, 1] = 2 ∧ fsum [-2 ^ 60, 1, 2 ^ 60, 1] = 1 := by
  letI := Arith.binary64
  refine ⟨?_, ?_, ?_, ?_⟩ <;> decide +kernel

theorem C118_false : ¬ @Spec.C118 Arith.binary64 (fun l => ∀ x ∈ l, @Arith.fl Arith.binary64 x = x) := by
  letI := Arith.binary64
  intro h
  have h1 := h (List.replicate 8 (fl (1 / 10))) (fun x hx => by
    rw [List.eq_of_mem_replicate hx]
    decide +kernel)
  obtain ⟨h2, h3, _⟩ := C118_tenths_false
  rw [h1] at h2
  exact absurd h2 h3.ne

/-! ## Cases -/

/-- A frame whose last tick is at 0.19. -/
def Demo.lastFrame : Frame :=
  let t : Tick := ⟨⟨0, 0, 0⟩, fl64 (19 / 100), fl64 (19 / 100)⟩
  ⟨0, none, none, none, 1, t, t, t, t, []⟩

/-- The value of an average over four periods in that frame, after the closes 0.07, 0.24 and 0.08. -/
def Demo.lastValue : IndVal :=
  let t : Tick := ⟨⟨0, 0, 0⟩, fl64 (19 / 100), fl64 (19 / 100)⟩
  ⟨⟨"s", .sma 4, false⟩, 0, t, t, t, t, [fl64 (7 / 100), fl64 (24 / 100), fl64 (8 / 100)], [], none⟩

/-- The indicator shows 0.15 there. -/
example : letI := Arith.binary64
    extendedCloses Demo.lastValue Demo.lastFrame = Demo.fourCloses ∧ smaGet [Demo.lastFrame] Demo.lastValue 4 = .ok (some (fl (15 / 100))) := by
  letI := Arith.binary64
  have h : extendedCloses Demo.lastValue Demo.lastFrame = Demo.fourCloses := by decide +kernel
  refine ⟨h, ?_⟩
  have := C118_sma_model [Demo.lastFrame] Demo.lastValue Demo.lastFrame 4 (by norm_num) rfl (by rw [h]; decide)
  rw [h] at this
  refine this.trans ?_
  have e : smaOld (Demo.fourCloses.drop (Demo.fourCloses.length - 4)) = fl (15 / 100) := C118_sma_false.1
  rw [e]

/-- The four closes are in the range. -/
example : letI := Arith.binary64
    Demo.fourCloses ≠ [] ∧ Demo.fourCloses.length ≤ 2 ^ 10 ∧ (Demo.fourCloses.map (fun x => |x|)).sum ≤ 2 ^ 30 := by
  refine ⟨?_, ?_, ?_⟩ <;> decide +kernel

/-- Quarters. -/
example : letI := Arith.binary64
    Spec.SumInUnits (2 ^ (-(2 : ℕ) : ℤ)) [1 / 4, 5 / 2, 3] ∧ sum312 [1 / 4, 5 / 2, 3] = 23 / 4 := by
  letI := Arith.binary64
  refine ⟨⟨[1, 10, 12], by norm_num, by norm_num⟩, by decide +kernel⟩

/-- The four closes are amounts of cents: their sums differ, but not when rounded. -/
example : letI := Arith.binary64
    Spec.CentSum Demo.fourCloses ∧ sum312 Demo.fourCloses ≠ fsum Demo.fourCloses ∧ rnd (sum312 Demo.fourCloses) = rnd (fsum Demo.fourCloses) := by
  letI := Arith.binary64
  have h : Spec.CentSum Demo.fourCloses := by
    refine ⟨[7 / 100, 24 / 100, 8 / 100, 19 / 100], fun x hx => ?_, by decide +kernel, by decide +kernel, rfl⟩
    simp only [List.mem_cons, List.not_mem_nil, or_false] at hx
    rcases hx with rfl | rfl | rfl | rfl
    · exact ⟨7, by norm_num⟩
    · exact ⟨24, by norm_num⟩
    · exact ⟨8, by norm_num⟩
    · exact ⟨19, by norm_num⟩
  exact ⟨h, by decide +kernel, (C118_cents_partial accurate_binary64).1 _ h⟩

/-- A trade closed in three parts with gains of 0.1, 0.2 and 0.3. -/
example : letI := Arith.binary64
    (([⟨fl (11 / 10), 1, ⟨0, 0, 0⟩, .confirmed⟩, ⟨fl (12 / 10), 1, ⟨0, 0, 0⟩, .confirmed⟩, ⟨fl (13 / 10), 1, ⟨0, 0, 0⟩, .confirmed⟩] : List TradeClose).map
      (fun c => |closeResult .buy 1 c|)).sum ≤ 1 := by
  letI := Arith.binary64
  decide +kernel

end Estrade
