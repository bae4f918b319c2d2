import Verif.Lots
import Verif.Float64
import Verif.Lemmas.Round
import Mathlib.Tactic.FieldSimp

/-!
# C116, C117: fractional quantities
-/

set_option linter.style.haveILetI false
set_option linter.unusedSectionVars false
set_option autoImplicit false

namespace Estrade

/-! ## Specification -/

/-- Spec: what remains of a quantity, computed without error. -/
def Spec.restOf : ℚ → List LotCmd → ℚ
  | r, [] => r
  | r, .update _ :: l => Spec.restOf r l
  | _, .close _ none :: l => Spec.restOf 0 l
  | r, .close _ (some x) :: l => Spec.restOf (if x = 0 then 0 else max 0 (r - x)) l

section
variable [Arith]

/-- Spec: C116 for the quantities and programs that are `ok`: what is open is what was opened without what was closed, and the trade is closed when nothing remains. -/
def Spec.C116 (ok : ℚ → List LotCmd → Prop) : Prop :=
  ∀ (d : Dir) (q v : ℚ) (l : List LotCmd), ok q l →
    ((Lot.new d q v).run l).openedQty = Spec.restOf q l ∧ (((Lot.new d q v).run l).closed = true ↔ Spec.restOf q l = 0)

/-- Spec: floats hold the multiples of `u` up to 2^53 times `u`. -/
def Spec.Unit (u : ℚ) : Prop := 0 < u ∧ ∀ n : ℤ, |n| ≤ 2 ^ 53 → fl (n * u) = n * u

/-- Spec: the quantity is a multiple of `u` that is not too large, and multiples of `u` are closed. -/
def Spec.InUnits (u q : ℚ) (l : List LotCmd) : Prop :=
  (∃ n : ℕ, n ≤ 2 ^ 53 ∧ q = n * u) ∧ ∀ v x, LotCmd.close v (some x) ∈ l → ∃ m : ℕ, x = m * u

/-- Spec: the average gain of a unit at `v`, in cents. -/
def Spec.unitGain (t : Lot) (v : ℚ) : ℚ := cent (match t.dir with | .buy => v - t.openValue | .sell => t.openValue - v)

/-- Spec: the gain of a trade: of each part, its quantity times the average gain of a unit. -/
def Spec.lotGain (t : Lot) : ℚ :=
  Spec.unitGain t t.curClose * (t.openQty - (t.closes.map LotClose.qty).sum) + (t.closes.map fun c => Spec.unitGain t c.value * c.qty).sum

/-- Spec: C117: results are gains up to `e` for every close. -/
def Spec.C117 (e : ℚ) : Prop := ∀ t : Lot, |t.result - Spec.lotGain t| ≤ t.closes.length * e

/-! ## C116 -/

theorem fsum_snoc (l : List ℚ) (x : ℚ) : fsum (l ++ [x]) = fadd (fsum l) x := by simp [fsum]

theorem Lot.closedQty_close (t : Lot) (v : ℚ) (q : Option ℚ) : (t.close v q).closedQty = fadd t.closedQty (t.closeQty q) := by
  simp [Lot.closedQty, Lot.close, fsum_snoc]

/-- The closed quantity is `c` units of the `n` that were opened. -/
def Lot.Units (u : ℚ) (n c : ℕ) (t : Lot) : Prop := n ≤ 2 ^ 53 ∧ c ≤ n ∧ t.openQty = n * u ∧ t.closedQty = c * u

theorem Lot.Units.opened {u : ℚ} (hu : Spec.Unit u) {n c : ℕ} {t : Lot} (h : t.Units u n c) : t.openedQty = ((n - c : ℕ) : ℚ) * u := by
  obtain ⟨h1, h2, h3, h4⟩ := h
  have := hu.2 ((n - c : ℕ) : ℤ) (by rw [Nat.abs_cast]; have : n - c ≤ 2 ^ 53 := by omega
                                     exact_mod_cast this)
  unfold Lot.openedQty fsub
  rw [h3, h4, ← sub_mul]
  rw [Nat.cast_sub h2] at this ⊢
  push_cast at this
  exact this

theorem Lot.Units.closing {u : ℚ} (hu : Spec.Unit u) {n c m : ℕ} {t : Lot} (h : t.Units u n c) {v : ℚ} {q : Option ℚ}
    (hm : m ≤ n - c) (hq : t.closeQty q = m * u) : (t.close v q).Units u n (c + m) := by
  obtain ⟨h1, h2, h3, h4⟩ := h
  refine ⟨h1, by omega, h3, ?_⟩
  have := hu.2 ((c + m : ℕ) : ℤ) (by rw [Nat.abs_cast]; have : c + m ≤ 2 ^ 53 := by omega
                                     exact_mod_cast this)
  rw [Lot.closedQty_close, h4, hq]
  unfold fadd
  rw [← add_mul]
  push_cast at this ⊢
  exact this

theorem Lot.Units.update {u : ℚ} {n c : ℕ} {t : Lot} (h : t.Units u n c) (v : ℚ) : (t.update v).Units u n c := by
  unfold Lot.update
  split_ifs
  · exact h
  · exact h

theorem Lot.Units.exec {u : ℚ} (hu : Spec.Unit u) {n c : ℕ} {t : Lot} (h : t.Units u n c) {k : LotCmd}
    (hk : ∀ v x, k = .close v (some x) → ∃ m : ℕ, x = m * u) :
    ∃ c', (t.exec k).Units u n c' ∧ ∀ l, Spec.restOf (((n - c : ℕ) : ℚ) * u) (k :: l) = Spec.restOf (((n - c' : ℕ) : ℚ) * u) l := by
  have ho := h.opened hu
  have all : ∀ v q, t.closeQty q = t.openedQty → ((t.close v q).Units u n n) := by
    intro v q e
    have := h.closing hu (v := v) (q := q) (le_refl (n - c)) (by rw [e, ho])
    rwa [Nat.add_sub_cancel' h.2.1] at this
  cases k with
  | update v => exact ⟨c, h.update v, fun l => rfl⟩
  | close v q =>
    cases q with
    | none =>
      refine ⟨n, all v none (by simp [Lot.closeQty]), fun l => by simp [Spec.restOf]⟩
    | some x =>
      obtain ⟨m, rfl⟩ := hk v x rfl
      by_cases h0 : (m : ℚ) * u = 0
      · refine ⟨n, all v _ (by simp [Lot.closeQty, h0]), fun l => ?_⟩
        rw [Spec.restOf, if_pos h0]; simp
      · rcases le_or_gt m (n - c) with hm | hm
        · have hle : (m : ℚ) * u ≤ ((n - c : ℕ) : ℚ) * u := mul_le_mul_of_nonneg_right (by exact_mod_cast hm) hu.1.le
          refine ⟨c + m, h.closing hu hm (by simp only [Lot.closeQty, if_neg h0, ho]; rw [if_neg (not_lt.mpr hle)]), fun l => ?_⟩
          rw [Spec.restOf, if_neg h0, max_eq_right (by linarith), ← sub_mul, show n - (c + m) = n - c - m by omega, Nat.cast_sub hm]
        · have hlt : ((n - c : ℕ) : ℚ) * u < (m : ℚ) * u := mul_lt_mul_of_pos_right (by exact_mod_cast hm) hu.1
          refine ⟨n, all v _ (by simp only [Lot.closeQty, if_neg h0, ho]; rw [if_pos hlt]), fun l => ?_⟩
          rw [Spec.restOf, if_neg h0, max_eq_left (by linarith)]; simp

theorem Lot.Units.run {u : ℚ} (hu : Spec.Unit u) {n : ℕ} (l : List LotCmd) {c : ℕ} {t : Lot} (h : t.Units u n c)
    (hl : ∀ v x, LotCmd.close v (some x) ∈ l → ∃ m : ℕ, x = m * u) :
    ∃ c', (t.run l).Units u n c' ∧ Spec.restOf (((n - c : ℕ) : ℚ) * u) l = ((n - c' : ℕ) : ℚ) * u := by
  induction l generalizing c t with
  | nil => exact ⟨c, h, rfl⟩
  | cons k l ih =>
    obtain ⟨c1, h1, e1⟩ := h.exec hu (k := k) (fun v x e => hl v x (by simp [e]))
    obtain ⟨c2, h2, e2⟩ := ih h1 (fun v x e => hl v x (by simp [e]))
    exact ⟨c2, h2, by rw [e1, e2]⟩

theorem Lot.units_new {u : ℚ} {n : ℕ} (hn : n ≤ 2 ^ 53) (d : Dir) (v : ℚ) : (Lot.new d (n * u) v).Units u n 0 := by
  refine ⟨hn, Nat.zero_le _, rfl, ?_⟩
  simp [Lot.new, Lot.closedQty, fsum]

/-- **C116** for quantities that are multiples of a unit whose multiples are floats: nothing is lost. -/
theorem C116_units_partial {u : ℚ} (hu : Spec.Unit u) : Spec.C116 (Spec.InUnits u) := by
  rintro d q v l ⟨⟨n, hn, rfl⟩, hl⟩
  obtain ⟨c, h, e⟩ := (Lot.units_new hn d v (u := u)).run hu l hl
  rw [Nat.sub_zero] at e
  have ho := h.opened hu
  rw [e]
  exact ⟨ho, by simp [Lot.closed, ho]⟩

/-- Whole numbers are a unit in every format. -/
theorem unit_one : Spec.Unit 1 := ⟨one_pos, fun n hn => by simpa using Arith.int_exact n hn⟩

/-- Spec: a trade of a whole quantity, seen as one of any quantity. -/
def Spec.asLot (t : Trade) : Lot :=
  ⟨t.dir, t.openQty, t.closes.map (fun c => ⟨c.closeValue, c.qty⟩), t.openValue, t.curClose⟩

theorem fsum_ints (l : List ℤ) (h : ∀ n ∈ l, 0 ≤ n) (hs : l.sum ≤ 2 ^ 53) : fsum (l.map (fun n : ℤ => (n : ℚ))) = (l.sum : ℤ) := by
  induction l using List.reverseRecOn with
  | nil => simp [fsum]
  | append_singleton l n ih =>
    have hn : 0 ≤ n := h n (by simp)
    have hl : 0 ≤ l.sum := List.sum_nonneg (fun m hm => h m (by simp [hm]))
    simp only [List.sum_append, List.sum_cons, List.sum_nil, add_zero] at hs ⊢
    rw [List.map_append, List.map_cons, List.map_nil, fsum_snoc, ih (fun m hm => h m (by simp [hm])) (by omega), fadd, ← Int.cast_add]
    exact Arith.int_exact _ (by rw [abs_of_nonneg (by omega)]; exact hs)

theorem Lot.asLot_opened {t : Trade} (h : ∀ c ∈ t.closes, 0 ≤ c.qty) (hc : t.closedQty ≤ t.openQty) (ho : t.openQty ≤ 2 ^ 53) :
    (Spec.asLot t).openedQty = t.openedQty := by
  have h0 : 0 ≤ t.closedQty := List.sum_nonneg (by simpa using h)
  have hcl : (Spec.asLot t).closedQty = t.closedQty := by
    have := fsum_ints (t.closes.map TradeClose.qty) (by simpa using h) (by unfold Trade.closedQty at hc; omega)
    unfold Lot.closedQty Trade.closedQty
    rw [← this]
    simp [Spec.asLot, Function.comp_def]
  unfold Lot.openedQty Trade.openedQty fsub
  rw [hcl]
  change fl ((t.openQty : ℚ) - t.closedQty) = _
  rw [← Int.cast_sub]
  exact Arith.int_exact _ (by rw [abs_of_nonneg (by omega)]; omega)

/-- Whole quantities, in every format: the trades of Trade.lean are trades of this model, with the same quantities, results and closes. -/
theorem C116_conservative {t : Trade} (h : ∀ c ∈ t.closes, 0 ≤ c.qty) (hc : t.closedQty ≤ t.openQty) (ho : t.openQty ≤ 2 ^ 53) :
    (Spec.asLot t).openedQty = t.openedQty ∧ (Spec.asLot t).closed = t.closed ∧ (Spec.asLot t).result = t.result ∧
      (∀ v dt q, Spec.asLot (t.close v dt q) = (Spec.asLot t).close v (q.map (fun n : ℤ => (n : ℚ)))) ∧
      ∀ v, Spec.asLot (t.update v) = (Spec.asLot t).update v := by
  have e := Lot.asLot_opened h hc ho
  have ec : (Spec.asLot t).closed = t.closed := by
    unfold Lot.closed Trade.closed; rw [e]; simp
  refine ⟨e, ec, ?_, fun v dt q => ?_, fun v => ?_⟩
  · unfold Lot.result Trade.result
    congr 1
    · unfold Lot.openedResult Trade.openedResult Trade.openedResultAvg
      rw [e, ec]
      rfl
    · unfold Lot.closedResult Trade.closedResult
      congr 1
      simp only [Spec.asLot, List.map_map]
      rfl
  · have : (Spec.asLot t).closeQty (q.map (fun n : ℤ => (n : ℚ))) = t.closeQty q := by
      unfold Lot.closeQty Trade.closeQty
      rw [e]
      cases q with
      | none => simp
      | some n =>
        by_cases hn : n = 0
        · subst hn; simp
        · simp only [Option.map_some, Int.cast_eq_zero, if_neg hn, Int.cast_lt]
          split_ifs <;> rfl
    unfold Lot.close
    rw [this]
    simp [Spec.asLot, Trade.close]
  · unfold Lot.update Trade.update
    rw [ec]
    split_ifs
    · rfl
    · unfold Trade.updateMinMax
      simp only []
      split_ifs <;> rfl

/-- The multiples of 2^-k are floats. -/
theorem unit_binary64 (k : ℕ) (hk : k ≤ 1074) : @Spec.Unit Arith.binary64 (2 ^ (-(k : ℤ))) := by
  refine ⟨zpow_pos (by norm_num) _, fun n hn => ?_⟩
  change fl64 (n * 2 ^ (-(k : ℤ))) = n * 2 ^ (-(k : ℤ))
  set x : ℚ := n * 2 ^ (-(k : ℤ)) with hx
  suffices ∃ m : ℤ, x = m * 2 ^ ulpExp x by
    obtain ⟨m, hm⟩ := this
    have h1 := fl64_nearest_multiple x m
    rw [← hm, sub_self, abs_zero, abs_nonpos_iff, sub_eq_zero] at h1
    exact h1
  have hp : (0 : ℚ) < 2 ^ (-(k : ℤ)) := zpow_pos (by norm_num) _
  have hge := ulpExp_ge x
  rcases le_or_gt (ulpExp x) (-(k : ℤ)) with he | he
  · refine ⟨n * 2 ^ (-(k : ℤ) - ulpExp x).toNat, ?_⟩
    push_cast
    rw [mul_assoc, ← zpow_natCast (2 : ℚ), ← zpow_add₀ (by norm_num)]
    rw [show (((-(k : ℤ) - ulpExp x).toNat : ℕ) : ℤ) + ulpExp x = -(k : ℤ) by omega]
  · have h1 := ulp_le_abs x (by omega)
    have hn' : |(n : ℚ)| ≤ 2 ^ 53 := by exact_mod_cast hn
    have hax : |x| = |(n : ℚ)| * 2 ^ (-(k : ℤ)) := by rw [hx, abs_mul, abs_of_pos hp]
    have h2 : (2 : ℚ) ^ ulpExp x ≤ 2 ^ (-(k : ℤ) + 1) := by
      have : (2 : ℚ) ^ 52 * 2 ^ ulpExp x ≤ 2 ^ 52 * 2 ^ (-(k : ℤ) + 1) := by
        refine h1.trans ?_
        rw [hax, zpow_add₀ (by norm_num)]
        nlinarith
      exact le_of_mul_le_mul_left this (by norm_num)
    have h3 : ulpExp x ≤ -(k : ℤ) + 1 := (zpow_le_zpow_iff_right₀ (by norm_num)).mp h2
    have h4 : ulpExp x = -(k : ℤ) + 1 := by omega
    rw [h4] at h1 ⊢
    rw [hax, zpow_add₀ (by norm_num)] at h1
    have h6 : (2 : ℚ) ^ 53 ≤ |(n : ℚ)| := by
      have : (2 : ℚ) ^ 53 * 2 ^ (-(k : ℤ)) ≤ |(n : ℚ)| * 2 ^ (-(k : ℤ)) := by
        refine le_trans (le_of_eq ?_) h1; ring
      exact le_of_mul_le_mul_right this hp
    have h5 : |(n : ℚ)| = 2 ^ 53 := le_antisymm hn' h6
    rw [hx, zpow_add₀ (by norm_num)]
    rcases abs_cases (n : ℚ) with ⟨e, _⟩ | ⟨e, _⟩
    · exact ⟨2 ^ 52, by rw [e] at h5; rw [h5]; push_cast; ring⟩
    · exact ⟨-2 ^ 52, by
        have : (n : ℚ) = -2 ^ 53 := by linarith
        rw [this]; push_cast; ring⟩

/-- **C116** in binary64 for halves, quarters, eighths and so on. -/
theorem C116_binary64_partial (k : ℕ) (hk : k ≤ 1074) : @Spec.C116 Arith.binary64 (Spec.InUnits (2 ^ (-(k : ℤ)))) :=
  letI := Arith.binary64
  C116_units_partial (unit_binary64 k hk)

/-- The program that closes a tenth eight times. -/
def Demo.tenths : List LotCmd := List.replicate 8 (.close 1 (some (fl64 (1 / 10))))

/-- Spec: quantities that are floats above 0. -/
def Spec.FloatQty (q : ℚ) (l : List LotCmd) : Prop :=
  (0 < q ∧ fl q = q) ∧ ∀ v x, LotCmd.close v (some x) ∈ l → 0 < x ∧ fl x = x

/-- C116 is false of other floats: a trade of 0.8 is still open when 0.1 have been closed eight times, although nothing remains. -/
theorem C116_tenths_false :
    letI := Arith.binary64
    Spec.FloatQty (fl (8 / 10)) Demo.tenths ∧ Spec.restOf (fl (8 / 10)) Demo.tenths = 0 ∧
      ∀ d v, ((Lot.new d (fl (8 / 10)) v).run Demo.tenths).openedQty = 1 / 2 ^ 53 ∧ ((Lot.new d (fl (8 / 10)) v).run Demo.tenths).closed = false := by
  letI := Arith.binary64
  refine ⟨⟨⟨by decide +kernel, by decide +kernel⟩, fun v x h => ?_⟩, by decide +kernel, fun d v => ?_⟩
  · simp only [Demo.tenths, List.mem_replicate, LotCmd.close.injEq, Option.some.injEq] at h
    obtain ⟨_, _, rfl⟩ := h
    exact ⟨by decide +kernel, by decide +kernel⟩
  · have e : ((Lot.new d (fl (8 / 10)) v).run Demo.tenths).openedQty = ((Lot.new .buy (fl (8 / 10)) 0).run Demo.tenths).openedQty := rfl
    have e2 : ((Lot.new .buy (fl (8 / 10)) 0).run Demo.tenths).openedQty = 1 / 2 ^ 53 := by decide +kernel
    refine ⟨e.trans e2, ?_⟩
    unfold Lot.closed
    rw [e, e2]
    norm_num

theorem C116_false : ¬ @Spec.C116 Arith.binary64 (@Spec.FloatQty Arith.binary64) := by
  letI := Arith.binary64
  intro h
  have h1 := (h .buy (fl (8 / 10)) 0 Demo.tenths C116_tenths_false.1).1
  rw [C116_tenths_false.2.1, (C116_tenths_false.2.2 .buy 0).1] at h1
  norm_num at h1

/-- A close of a part, and then of all the rest. -/
def Demo.partAndRest (x : ℚ) : List LotCmd := [.close 1 (some x), .close 1 none]

/-- Nor does `close()` always close the rest: a quantity below 0 may remain, or one above. -/
theorem C116_rest_false :
    letI := Arith.binary64
    (Spec.FloatQty (1 + 5 / 2 ^ 52) (Demo.partAndRest (3 / 2 ^ 53)) ∧
      ∀ d v, ((Lot.new d (1 + 5 / 2 ^ 52) v).run (Demo.partAndRest (3 / 2 ^ 53))).openedQty = - 1 / 2 ^ 52) ∧
    (Spec.FloatQty (1 + 1 / 2 ^ 52) (Demo.partAndRest (1 / 2 ^ 53)) ∧
      ∀ d v, ((Lot.new d (1 + 1 / 2 ^ 52) v).run (Demo.partAndRest (1 / 2 ^ 53))).openedQty = 1 / 2 ^ 52) := by
  letI := Arith.binary64
  have key : ∀ q x : ℚ, 0 < q → fl q = q → 0 < x → fl x = x → Spec.FloatQty q (Demo.partAndRest x) := by
    intro q x h1 h2 h3 h4
    refine ⟨⟨h1, h2⟩, fun v y h => ?_⟩
    simp only [Demo.partAndRest, List.mem_cons, LotCmd.close.injEq, Option.some.injEq, reduceCtorEq, and_false, List.not_mem_nil, or_false] at h
    rw [h.2]; exact ⟨h3, h4⟩
  refine ⟨⟨key _ _ ?_ ?_ ?_ ?_, fun d v => ?_⟩, ⟨key _ _ ?_ ?_ ?_ ?_, fun d v => ?_⟩⟩
  any_goals decide +kernel
  · change ((Lot.new .buy (1 + 5 / 2 ^ 52) 0).run (Demo.partAndRest (3 / 2 ^ 53))).openedQty = - 1 / 2 ^ 52
    decide +kernel
  · change ((Lot.new .buy (1 + 1 / 2 ^ 52) 0).run (Demo.partAndRest (1 / 2 ^ 53))).openedQty = 1 / 2 ^ 52
    decide +kernel

/-! ### Netting -/

/-- Spec: C116 for a new trade of a quantity that meets open ones of the opposite direction: what remains is what exceeds their open quantities. -/
def Spec.C116_net (ok : List Lot → ℚ → Prop) : Prop :=
  ∀ (v : ℚ) (ts : List Lot) (q : ℚ), ok ts q →
    (Lot.net v ts q).2 = max 0 (q - (ts.map Lot.openedQty).sum) ∧ (Lot.opens v ts q = true ↔ (ts.map Lot.openedQty).sum < q)

/-- Spec: the trades have come about by programs in units of `u`, and the new quantity is in such units too. -/
def Spec.LotsInUnits (u : ℚ) (ts : List Lot) (q : ℚ) : Prop :=
  (∃ n : ℕ, n ≤ 2 ^ 53 ∧ q = n * u) ∧ ∀ t ∈ ts, ∃ d q' v l, Spec.InUnits u q' l ∧ t = (Lot.new d q' v).run l

theorem Lot.net_units {u : ℚ} (hu : Spec.Unit u) (v : ℚ) (ts : List Lot) :
    ∀ n : ℕ, n ≤ 2 ^ 53 → (∀ t ∈ ts, ∃ k : ℕ, t.openedQty = k * u) → (Lot.net v ts (n * u)).2 = max 0 (n * u - (ts.map Lot.openedQty).sum) := by
  induction ts with
  | nil =>
    intro n _ _
    have : (0 : ℚ) ≤ n * u := mul_nonneg (Nat.cast_nonneg n) hu.1.le
    simp [Lot.net, this]
  | cons t ts ih =>
    intro n hn h
    obtain ⟨k, hk⟩ := h t (by simp)
    have hs : (0 : ℚ) ≤ (ts.map Lot.openedQty).sum := by
      apply List.sum_nonneg
      intro x hx
      obtain ⟨t', ht', rfl⟩ := List.mem_map.mp hx
      obtain ⟨k', hk'⟩ := h t' (by simp [ht'])
      rw [hk']
      exact mul_nonneg (Nat.cast_nonneg _) hu.1.le
    have hmin : min t.openedQty (n * u) = ((min k n : ℕ) : ℚ) * u := by
      rw [hk, Nat.cast_min, min_mul_of_nonneg _ _ hu.1.le]
    have hsub : fsub (n * u) (min t.openedQty (n * u)) = ((n - min k n : ℕ) : ℚ) * u := by
      have := hu.2 ((n - min k n : ℕ) : ℤ) (by rw [Nat.abs_cast]; have : n - min k n ≤ 2 ^ 53 := by omega
                                               exact_mod_cast this)
      rw [hmin]
      unfold fsub
      rw [← sub_mul]
      rw [Nat.cast_sub (Nat.min_le_right k n)] at this ⊢
      push_cast at this ⊢
      exact this
    simp only [Lot.net]
    rw [hsub, ih _ (by omega) (fun t' ht' => h t' (by simp [ht']))]
    simp only [List.map_cons, List.sum_cons, hk]
    rcases le_total k n with hkn | hkn
    · rw [Nat.min_eq_left hkn, Nat.cast_sub hkn, sub_mul, sub_sub]
    · have : (n : ℚ) * u ≤ k * u := mul_le_mul_of_nonneg_right (by exact_mod_cast hkn) hu.1.le
      rw [Nat.min_eq_right hkn, Nat.sub_self, max_eq_left (by simp; linarith), max_eq_left (by linarith)]

/-- **C116** for netting, in units. -/
theorem C116_net_partial {u : ℚ} (hu : Spec.Unit u) : Spec.C116_net (Spec.LotsInUnits u) := by
  rintro v ts q ⟨⟨n, hn, rfl⟩, h⟩
  have e := Lot.net_units hu v ts n hn (by
    intro t ht
    obtain ⟨d, q', w, l, ⟨⟨m, hm, rfl⟩, hl⟩, rfl⟩ := h t ht
    obtain ⟨c, hc, _⟩ := (Lot.units_new hm d w (u := u)).run hu l hl
    exact ⟨m - c, hc.opened hu⟩)
  refine ⟨e, ?_⟩
  simp only [Lot.opens, e, decide_eq_true_eq, lt_max_iff, lt_irrefl, false_or, sub_pos]

/-- Spec: the open quantities of trades after a new one of quantity `r` has met them: each gives what the new one still has; once it has nothing any more, they are closed
completely (C30). -/
def Spec.netted : List ℚ → ℚ → List ℚ
  | [], _ => []
  | o :: os, r => (if r = 0 then 0 else max 0 (o - r)) :: Spec.netted os (max 0 (r - o))

theorem Lot.netted_units {u : ℚ} (hu : Spec.Unit u) (v : ℚ) (ts : List Lot) :
    ∀ n : ℕ, n ≤ 2 ^ 53 → (∀ t ∈ ts, ∃ m c : ℕ, t.Units u m c) →
      (Lot.net v ts (n * u)).1.map Lot.openedQty = Spec.netted (ts.map Lot.openedQty) (n * u) := by
  induction ts with
  | nil => intro n _ _; rfl
  | cons t ts ih =>
    intro n hn h
    obtain ⟨m, c, ht⟩ := h t (by simp)
    have hk := ht.opened hu
    set k := m - c with hkdef
    have hmin : min t.openedQty (n * u) = ((min k n : ℕ) : ℚ) * u := by
      rw [hk, Nat.cast_min, min_mul_of_nonneg _ _ hu.1.le]
    have hsub : fsub (n * u) (min t.openedQty (n * u)) = ((n - min k n : ℕ) : ℚ) * u := by
      have := hu.2 ((n - min k n : ℕ) : ℤ) (by rw [Nat.abs_cast]; have : n - min k n ≤ 2 ^ 53 := by omega
                                               exact_mod_cast this)
      rw [hmin]
      unfold fsub
      rw [← sub_mul]
      rw [Nat.cast_sub (Nat.min_le_right k n)] at this ⊢
      push_cast at this ⊢
      exact this
    have hrest : ((n - min k n : ℕ) : ℚ) * u = max 0 (n * u - k * u) := by
      rcases le_total k n with hkn | hkn
      · have : (k : ℚ) * u ≤ n * u := mul_le_mul_of_nonneg_right (by exact_mod_cast hkn) hu.1.le
        rw [Nat.min_eq_left hkn, Nat.cast_sub hkn, sub_mul, max_eq_right (by linarith)]
      · have : (n : ℚ) * u ≤ k * u := mul_le_mul_of_nonneg_right (by exact_mod_cast hkn) hu.1.le
        rw [Nat.min_eq_right hkn, Nat.sub_self, max_eq_left (by linarith)]; simp
    have hone : (t.closeAt v (some (min t.openedQty (n * u)))).openedQty = if (n : ℚ) * u = 0 then 0 else max 0 (k * u - n * u) := by
      obtain ⟨c', h1, e⟩ := (ht.update v).exec hu (k := .close (t.update v).curClose (some (min t.openedQty (n * u))))
        (fun w x hx => ⟨min k n, by rw [← hmin]; cases hx; rfl⟩)
      have e := e []
      have h2 : (t.closeAt v (some (min t.openedQty (n * u)))).openedQty =
          ((t.update v).exec (.close (t.update v).curClose (some (min t.openedQty (n * u))))).openedQty := rfl
      rw [h2, h1.opened hu]
      simp only [Spec.restOf] at e
      rw [← e, hmin]
      have hz : ∀ a : ℕ, (a : ℚ) * u = 0 ↔ a = 0 := fun a => by simp [hu.1.ne']
      simp only [hz, ← hkdef]
      rcases le_total k n with hkn | hkn
      · have h3 : (k : ℚ) * u ≤ n * u := mul_le_mul_of_nonneg_right (by exact_mod_cast hkn) hu.1.le
        rw [Nat.min_eq_left hkn, max_eq_left (by linarith : (k : ℚ) * u - n * u ≤ 0), sub_self, max_self]
        simp
      · rw [Nat.min_eq_right hkn]
    simp only [Lot.net, List.map_cons, Spec.netted]
    rw [hsub, ih _ (by omega) (fun t' ht' => h t' (by simp [ht'])), hone, hk, hrest]

/-- **C116** for netting, in units: what remains open of the trades that are met. -/
theorem C116_netted_partial {u : ℚ} (hu : Spec.Unit u) (v : ℚ) (ts : List Lot) (q : ℚ) (h : Spec.LotsInUnits u ts q) :
    (Lot.net v ts q).1.map Lot.openedQty = Spec.netted (ts.map Lot.openedQty) q := by
  obtain ⟨⟨n, hn, rfl⟩, h⟩ := h
  refine Lot.netted_units hu v ts n hn (fun t ht => ?_)
  obtain ⟨d, q', w, l, ⟨⟨m, hm, rfl⟩, hl⟩, rfl⟩ := h t ht
  obtain ⟨c, hc, _⟩ := (Lot.units_new hm d w (u := u)).run hu l hl
  exact ⟨m, c, hc⟩

/-- Netting closes at the present value, in every format: each of the trades, all open, has one more close, at that value, and its other closes are as before. -/
theorem C116_net_value (v : ℚ) (ts : List Lot) (q : ℚ) (h : ∀ t ∈ ts, t.closed = false) :
    List.Forall₂ (fun t t' => t'.openQty = t.openQty ∧ ∃ x, t'.closes = t.closes ++ [⟨v, x⟩]) ts (Lot.net v ts q).1 := by
  induction ts generalizing q with
  | nil => exact .nil
  | cons t ts ih =>
    have ht := h t (by simp)
    refine .cons ?_ (ih _ (fun t' ht' => h t' (by simp [ht'])))
    simp [Lot.closeAt, Lot.close, Lot.update, ht]

/-- Eight trades of 0.1 are met by one of 0.8: a trade of 2^-53 * 1.25 is opened on the other side. -/
theorem C116_net_false :
    letI := Arith.binary64
    ((List.replicate 8 (Lot.new .buy (fl (1 / 10)) 1)).map Lot.openedQty).sum = fl (8 / 10) ∧
      Lot.opens 1 (List.replicate 8 (Lot.new .buy (fl (1 / 10)) 1)) (fl (8 / 10)) = true ∧
      (Lot.net 1 (List.replicate 8 (Lot.new .buy (fl (1 / 10)) 1)) (fl (8 / 10))).2 = 5 / 2 ^ 55 := by
  letI := Arith.binary64
  refine ⟨?_, ?_, ?_⟩ <;> decide +kernel

/-! ## C117 -/

theorem Lot.avg_exact (hx : Exact) (t : Lot) (v : ℚ) : t.avg v = Spec.unitGain t v := by
  unfold Lot.avg Spec.unitGain rnd fsub
  cases t.dir <;> simp [hx _]

theorem Lot.openedResult_exact (hx : Exact) (t : Lot) :
    t.openedResult = Spec.unitGain t t.curClose * (t.openQty - (t.closes.map LotClose.qty).sum) := by
  have ho : t.openedQty = t.openQty - (t.closes.map LotClose.qty).sum := by
    rw [Lot.openedQty, fsub, hx, Lot.closedQty, fsum_exact hx]
  unfold Lot.openedResult fmul
  rw [hx, t.avg_exact hx, ← ho]
  split_ifs with h
  · have : t.openedQty = 0 := by simpa [Lot.closed] using h
    rw [this]; ring
  · rfl

/-- **C117**: without the error of floats, the result is the gain up to half a cent for every close. -/
theorem C117_half_cent (hx : Exact) : Spec.C117 (1 / 200) := by
  intro t
  have key : ∀ l : List LotClose, |(l.map t.closeResult).sum - (l.map fun c => Spec.unitGain t c.value * c.qty).sum| ≤ l.length * (1 / 200) := by
    intro l
    induction l with
    | nil => simp
    | cons c l ih =>
      have h1 : |t.closeResult c - Spec.unitGain t c.value * c.qty| ≤ 1 / 200 := by
        have : t.closeResult c = cent (Spec.unitGain t c.value * c.qty) := by
          unfold Lot.closeResult rnd fmul
          rw [hx, hx, t.avg_exact hx]
        rw [this, abs_sub_comm]
        exact cent_abs _
      simp only [List.map_cons, List.sum_cons, List.length_cons]
      push_cast
      rw [abs_le] at *
      constructor <;> linarith
  have := key t.closes
  unfold Lot.result fadd Spec.lotGain
  rw [hx, t.openedResult_exact hx, Lot.closedResult, fsum_exact hx, add_sub_add_left_eq_sub]
  exact this

/-- The gain does not change by a close at the price the trade is valued at, whatever the quantity. -/
theorem lotGain_close (t : Lot) (q : Option ℚ) : Spec.lotGain (t.close t.curClose q) = Spec.lotGain t := by
  simp only [Spec.lotGain, Spec.unitGain, Lot.close, List.map_append, List.map_cons, List.map_nil, List.sum_append, List.sum_cons, List.sum_nil]
  ring

/-- **C117**: a close at the price a trade is valued at changes its result by at most half a cent. -/
theorem C117_close (hx : Exact) (t : Lot) (q : Option ℚ) : |(t.close t.curClose q).result - t.result| ≤ 1 / 200 := by
  have hg := lotGain_close t q
  unfold Spec.lotGain at hg
  have e : (t.close t.curClose q).closedResult = t.closedResult + t.closeResult ⟨t.curClose, t.closeQty q⟩ := by
    have : (t.close t.curClose q).closeResult = t.closeResult := by
      funext c; simp [Lot.closeResult, Lot.avg, Lot.close]
    unfold Lot.closedResult
    rw [fsum_exact hx, fsum_exact hx, this]
    simp [Lot.close]
  have h1 : t.closeResult ⟨t.curClose, t.closeQty q⟩ = cent (Spec.unitGain t t.curClose * t.closeQty q) := by
    unfold Lot.closeResult rnd fmul
    rw [hx, hx, t.avg_exact hx]
  have h2 := cent_abs (Spec.unitGain t t.curClose * t.closeQty q)
  unfold Lot.result fadd
  rw [hx, hx, e, h1, (t.close t.curClose q).openedResult_exact hx, t.openedResult_exact hx]
  have h3 : Spec.unitGain (t.close t.curClose q) (t.close t.curClose q).curClose = Spec.unitGain t t.curClose := rfl
  have h4 : ((t.close t.curClose q).closes.map LotClose.qty).sum = (t.closes.map LotClose.qty).sum + t.closeQty q := by simp [Lot.close]
  have h5 : (t.close t.curClose q).openQty = t.openQty := rfl
  rw [h3, h4, h5, abs_le] at *
  constructor <;> linarith

/-- The program that closes half a unit `k` times. -/
def Demo.halves (k : ℕ) : List LotCmd := List.replicate k (.close (101 / 100) (some (1 / 2)))

theorem Lot.halves_run (hx : Exact) (n : ℕ) : ∀ k ≤ n,
    (Lot.new .buy (n / 2) 1).run (Demo.halves k) = ⟨.buy, n / 2, List.replicate k ⟨101 / 100, 1 / 2⟩, 1, 1⟩ := by
  intro k
  induction k with
  | zero => intro _; rfl
  | succ k ih =>
    intro hk
    have ih := ih (by omega)
    unfold Demo.halves Lot.run at *
    rw [List.replicate_succ', List.foldl_append, ih]
    simp only [List.foldl_cons, List.foldl_nil, Lot.exec, Lot.close]
    have ho : (⟨.buy, n / 2, List.replicate k ⟨101 / 100, 1 / 2⟩, 1, 1⟩ : Lot).openedQty = (n : ℚ) / 2 - k / 2 := by
      rw [Lot.openedQty, fsub, hx, Lot.closedQty, fsum_exact hx]
      simp
      ring
    have hc : (⟨.buy, n / 2, List.replicate k ⟨101 / 100, 1 / 2⟩, 1, 1⟩ : Lot).closeQty (some (1 / 2)) = 1 / 2 := by
      have : (k : ℚ) + 1 ≤ n := by exact_mod_cast hk
      unfold Lot.closeQty
      simp only [ho]
      rw [if_neg (by norm_num : ¬ (1 / 2 : ℚ) = 0), if_neg (by linarith)]
    rw [hc, List.replicate_succ']

/-- The half cents add up without bound, in one direction: `n` closes of half a unit with a gain of a cent per unit gain nothing at all. -/
theorem C117_adds_up_false (hx : Exact) (n : ℕ) :
    ((Lot.new .buy (n / 2) 1).run (Demo.halves n)).closed = true ∧ ((Lot.new .buy (n / 2) 1).run (Demo.halves n)).result = 0 ∧
      Spec.lotGain ((Lot.new .buy (n / 2) 1).run (Demo.halves n)) = n / 200 := by
  rw [Lot.halves_run hx n n le_rfl]
  set t : Lot := ⟨.buy, n / 2, List.replicate n ⟨101 / 100, 1 / 2⟩, 1, 1⟩ with ht
  have hs : (t.closes.map LotClose.qty).sum = n / 2 := by simp [ht]; ring
  have hg : Spec.unitGain t (101 / 100) = 1 / 100 := by
    unfold Spec.unitGain; simp only [ht]; decide +kernel
  have h0 : Spec.unitGain t t.curClose = 0 := by
    unfold Spec.unitGain; simp [ht]
  refine ⟨?_, ?_, ?_⟩
  · unfold Lot.closed
    rw [Lot.openedQty, fsub, hx, Lot.closedQty, fsum_exact hx, hs]
    simp [ht]
  · have hr : ∀ c ∈ t.closes, t.closeResult c = 0 := by
      intro c hc
      have : c = ⟨101 / 100, 1 / 2⟩ := List.eq_of_mem_replicate hc
      subst this
      unfold Lot.closeResult rnd fmul
      rw [hx, hx, t.avg_exact hx, hg]
      decide +kernel
    unfold Lot.result fadd
    rw [hx, t.openedResult_exact hx, h0, Lot.closedResult, fsum_exact hx, List.map_congr_left hr]
    simp
  · unfold Spec.lotGain
    rw [h0]
    have : (t.closes.map fun c => Spec.unitGain t c.value * c.qty).sum = n * (1 / 200) := by
      have hr : ∀ c ∈ t.closes, Spec.unitGain t c.value * c.qty = 1 / 200 := by
        intro c hc
        have : c = ⟨101 / 100, 1 / 2⟩ := List.eq_of_mem_replicate hc
        subst this
        rw [hg]; norm_num
      rw [List.map_congr_left hr]
      simp [ht]
    rw [this]; ring

/-- So results are not the gains. -/
theorem C117_false (hx : Exact) : ¬ Spec.C117 0 := by
  intro h
  have h1 := h ((Lot.new .buy ((1 : ℕ) / 2) 1).run (Demo.halves 1))
  obtain ⟨_, h2, h3⟩ := C117_adds_up_false hx 1
  rw [h2, h3] at h1
  norm_num at h1

/-- **C117** for whole quantities: with closes of whole quantities, results are gains. -/
theorem C117_whole_partial (hx : Exact) (t : Lot) (h : ∀ c ∈ t.closes, ∃ n : ℤ, c.qty = n) : t.result = Spec.lotGain t := by
  unfold Lot.result fadd Spec.lotGain
  rw [hx, t.openedResult_exact hx, Lot.closedResult, fsum_exact hx]
  congr 2
  apply List.map_congr_left
  intro c hc
  obtain ⟨n, hn⟩ := h c hc
  unfold Lot.closeResult rnd fmul
  rw [hx, hx, t.avg_exact hx, hn]
  have : ∃ m : ℤ, Spec.unitGain t c.value = m / 100 := ⟨_, rfl⟩
  obtain ⟨m, hm⟩ := this
  rw [hm, show (m : ℚ) / 100 * n = ((m * n : ℤ) : ℚ) / 100 by push_cast; ring, cent_div]

end

/-! ## Cases -/

/-- A trade of 2.75 of which 0.5 and 1.25 are closed, in quarters: one remains. -/
example : letI := Arith.binary64
    Spec.InUnits (2 ^ (-(2 : ℕ) : ℤ)) (11 / 4) [.close 3 (some (1 / 2)), .update 4, .close 5 (some (5 / 4))] ∧
    ((Lot.new .buy (11 / 4) 1).run [.close 3 (some (1 / 2)), .update 4, .close 5 (some (5 / 4))]).openedQty = 1 := by
  letI := Arith.binary64
  refine ⟨⟨⟨11, by norm_num, by norm_num⟩, fun v x h => ?_⟩, by decide +kernel⟩
  simp only [List.mem_cons, LotCmd.close.injEq, Option.some.injEq, reduceCtorEq, List.not_mem_nil, or_false, false_or] at h
  rcases h with ⟨_, rfl⟩ | ⟨_, rfl⟩
  · exact ⟨2, by norm_num⟩
  · exact ⟨5, by norm_num⟩

/-- A trade of 5 of which 2 are closed is such a trade. -/
example : letI := Arith.exact
    (∀ c ∈ ((Trade.new .buy 5 1 ⟨0, 0, 0⟩ 0 none none).close 2 ⟨0, 0, 0⟩ (some 2)).closes, 0 ≤ c.qty) ∧
    ((Trade.new .buy 5 1 ⟨0, 0, 0⟩ 0 none none).close 2 ⟨0, 0, 0⟩ (some 2)).closedQty ≤ 5 ∧
    (Spec.asLot ((Trade.new .buy 5 1 ⟨0, 0, 0⟩ 0 none none).close 2 ⟨0, 0, 0⟩ (some 2))).openedQty = 3 := by
  letI := Arith.exact
  refine ⟨?_, ?_, ?_⟩ <;> decide +kernel

/-- Trades of 0.5 and 0.75 are met by one of 2: 0.75 are opened. -/
example : letI := Arith.binary64
    Spec.LotsInUnits (2 ^ (-(2 : ℕ) : ℤ)) [Lot.new .buy (1 / 2) 1, Lot.new .buy (3 / 4) 1] 2 ∧
    (Lot.net 1 [Lot.new .buy (1 / 2) 1, Lot.new .buy (3 / 4) 1] 2).2 = 3 / 4 := by
  letI := Arith.binary64
  refine ⟨⟨⟨8, by norm_num, by norm_num⟩, fun t h => ?_⟩, by decide +kernel⟩
  simp only [List.mem_cons, List.not_mem_nil, or_false] at h
  rcases h with rfl | rfl
  · exact ⟨.buy, 1 / 2, 1, [], ⟨⟨2, by norm_num, by norm_num⟩, by simp⟩, rfl⟩
  · exact ⟨.buy, 3 / 4, 1, [], ⟨⟨3, by norm_num, by norm_num⟩, by simp⟩, rfl⟩

/-- Trades of 0.5 and 0.75 are met by one of 1: 0.25 remain of the second. -/
example : letI := Arith.binary64
    (Lot.net 3 [Lot.new .buy (1 / 2) 1, Lot.new .buy (3 / 4) 1] 1).1.map Lot.openedQty = [0, 1 / 4] ∧
    Spec.netted [1 / 2, 3 / 4] 1 = [0, 1 / 4] ∧ ∀ t ∈ [Lot.new .buy (1 / 2) 1, Lot.new .buy (3 / 4) 1], t.closed = false := by
  letI := Arith.binary64
  refine ⟨?_, ?_, ?_⟩ <;> decide +kernel

/-- A sale of 1.5 at 10 of which 0.5 are closed at 9.87 and the rest is valued at 9.9: the half gains 0.065, of which 0.06 are paid. -/
example : letI := Arith.exact
    ((Lot.new .sell (3 / 2) 10).run [.close (987 / 100) (some (1 / 2)), .update (99 / 10)]).result = 16 / 100 ∧
    Spec.lotGain ((Lot.new .sell (3 / 2) 10).run [.close (987 / 100) (some (1 / 2)), .update (99 / 10)]) = 165 / 1000 := by
  letI := Arith.exact
  refine ⟨?_, ?_⟩ <;> decide +kernel

/-- The same with whole quantities: nothing is lost. -/
example : letI := Arith.exact
    ((Lot.new .sell 3 10).run [.close (987 / 100) (some 1), .update (99 / 10)]).result = 33 / 100 ∧
    ∀ c ∈ ((Lot.new .sell 3 10).run [.close (987 / 100) (some 1), .update (99 / 10)]).closes, ∃ n : ℤ, c.qty = n := by
  letI := Arith.exact
  refine ⟨by decide +kernel, fun c hc => ?_⟩
  have : c.qty = 1 := by
    have : ∀ c ∈ ((Lot.new .sell 3 10).run [.close (987 / 100) (some 1), .update (99 / 10)]).closes, c.qty = 1 := by decide +kernel
    exact this c hc
  exact ⟨1, by rw [this]; rfl⟩

end Estrade
