import Verif.Props.Indicators
import Verif.Lemmas.Range

/-!
# C42, C50 within the range of the float format

Candles and pivots on tick values of at most 2^35 in any format with 53-bit precision (`Accurate`, binary64 included):
rounded to cents, the parts of a candle and the pivot levels are the floats of the exact amounts.
-/

set_option linter.style.haveILetI false
set_option linter.unusedSectionVars false
set_option autoImplicit false

namespace Estrade

section
variable [Arith]

/-- A tick value is the float of an amount in cents. -/
theorem value_cents (hA : Accurate) (t : Tick) (h : |t.value| ≤ 2 ^ 35) :
    ∃ s, IsCent s ∧ t.value = fl s ∧ |s| ≤ 2 ^ 36 := by
  refine ⟨_, isCent_cent (fadd t.bid (fdiv t.spread 2)), rfl, ?_⟩
  have := abs_le_of_fl hA (M := 2 ^ 35) (by norm_num) h
  linarith

theorem rnd_sub_cents (hA : Accurate) {s t : ℚ} (h1 : |s| ≤ 2 ^ 36)
    (h2 : |t| ≤ 2 ^ 36) : Apx (2 ^ 39) 3 (fsub (fl s) (fl t)) (s - t) :=
  (Apx.fl hA (by norm_num) (by linarith)).sub hA (by norm_num) (Apx.fl hA (by norm_num) (by linarith))
    (by have := abs_sub s t; linarith) (by norm_num)

/-- C42, sum, in range: body, head and tail, added in floats and rounded to cents, are the height rounded to cents,
and before rounding the difference is below a cent.  Missing: candles that open or end at 0 (`C42_false`), equality of
the unrounded floats (`C42_not_in_binary64`). -/
theorem C42_sum_in_range_partial (hA : Accurate) (u : Unit') (q m : ℤ) (hm : 1 ≤ m) (fs : FrameSet) (h : List HEv)
    (hF : Feeds u q m fs h) (f : Frame) (hf : f ∈ fs.heap) (r : String) (v : IndVal) (hv : f.get r = some v)
    (h0 : jOpen v ≠ 0 ∧ jLast v ≠ 0) (hlo : |v.low.value| ≤ 2 ^ 35) (hhi : |v.high.value| ≤ 2 ^ 35) :
    ∃ b hd tl, (jOhlc v).body = some b ∧ (jOhlc v).head = some hd ∧ (jOhlc v).tail = some tl ∧
      rnd (fadd (fadd b hd) tl) = rnd (jOhlc v).height ∧ |b + hd + tl - (jOhlc v).height| < 1 / 100 := by
  obtain ⟨b, hd, tl, e1, e2, e3, -⟩ := C42_parts_partial u q m hm fs h hF f hf r v hv h0
  obtain ⟨o1, o2, o3, o4, k1, k2, k3, k4⟩ := C42_order u q m hm fs h hF f hf r v hv
  refine ⟨b, hd, tl, e1, e2, e3, ?_⟩
  rw [abs_le] at hlo hhi
  have bnd : ∀ x, jLow v ≤ x → x ≤ jHigh v → |x| ≤ 2 ^ 35 := by
    intro x h1 h2
    rw [k3] at h1; rw [k2] at h2
    rw [abs_le]; exact ⟨by linarith [hlo.1], by linarith [hhi.2]⟩
  obtain ⟨O, cO, vO, sO⟩ := value_cents hA v.first (by rw [← k1]; exact bnd _ o1 o2)
  obtain ⟨H, cH, vH, sH⟩ := value_cents hA v.high (by rw [← k2]; exact bnd _ (o1.trans o2) le_rfl)
  obtain ⟨L, cL, vL, sL⟩ := value_cents hA v.low (by rw [← k3]; exact bnd _ le_rfl (o1.trans o2))
  obtain ⟨A, cA, vA, sA⟩ := value_cents hA v.last (by rw [← k4]; exact bnd _ o3 o4)
  rw [vO] at k1; rw [vH] at k2; rw [vL] at k3; rw [vA] at k4
  have hne : ¬ (jOpen v = 0 ∨ jLast v = 0) := by tauto
  have e1 : rnd |fsub (jOpen v) (jLast v)| = b :=
    Option.some.inj ((if_neg (c := (jOhlc v).op = 0 ∨ (jOhlc v).la = 0) hne).symm.trans e1)
  have e2 : rnd (fsub (jHigh v) (max (jOpen v) (jLast v))) = hd :=
    Option.some.inj ((if_neg (c := (jOhlc v).op = 0 ∨ (jOhlc v).la = 0) hne).symm.trans e2)
  have e3 : rnd (fsub (min (jOpen v) (jLast v)) (jLow v)) = tl :=
    Option.some.inj ((if_neg (c := (jOhlc v).op = 0 ∨ (jOhlc v).la = 0) hne).symm.trans e3)
  change rnd (fadd (fadd b hd) tl) = rnd (fsub (jHigh v) (jLow v)) ∧ |b + hd + tl - fsub (jHigh v) (jLow v)| < 1 / 100
  rw [k1, k4] at e1 e2 e3
  rw [k2] at e2
  rw [k3] at e3
  rw [k2, k3]
  have hS : (1 : ℚ) ≤ 2 ^ 39 := by norm_num
  -- the three parts and the height in exact cents
  obtain ⟨B, D, T, cB, cD, cT, hb, hh, ht, hBDT, zB, zD, zT⟩ : ∃ B D T : ℚ, IsCent B ∧ IsCent D ∧ IsCent T ∧
      b = fl B ∧ hd = fl D ∧ tl = fl T ∧ B + D + T = H - L ∧ |B| ≤ 2 ^ 37 ∧ |D| ≤ 2 ^ 37 ∧ |T| ≤ 2 ^ 37 := by
    have sub37 : ∀ {x y : ℚ}, |x| ≤ 2 ^ 36 → |y| ≤ 2 ^ 36 → |x - y| ≤ 2 ^ 37 := by
      intro x y hx hy; have := abs_sub x y; linarith
    rcases le_total (fl O) (fl A) with hc | hc
    · rw [max_eq_right hc] at e2
      rw [min_eq_left hc] at e3
      refine ⟨A - O, H - A, O - L, cA.sub cO, cH.sub cA, cO.sub cL, ?_, ?_, ?_, by ring, sub37 sA sO, sub37 sH sA,
        sub37 sO sL⟩
      · rw [← e1, abs_of_nonpos]
        · rw [show -fsub (fl O) (fl A) = fsub (fl A) (fl O) by unfold fsub; rw [← fl_neg]; congr 1; ring]
          exact (rnd_sub_cents hA sA sO).rnd39 (cA.sub cO) (by norm_num)
        · have := fsub_nonneg hc
          unfold fsub at this ⊢
          rw [show fl O - fl A = -(fl A - fl O) by ring, fl_neg]; linarith
      · rw [← e2]; exact (rnd_sub_cents hA sH sA).rnd39 (cH.sub cA) (by norm_num)
      · rw [← e3]; exact (rnd_sub_cents hA sO sL).rnd39 (cO.sub cL) (by norm_num)
    · rw [max_eq_left hc] at e2
      rw [min_eq_right hc] at e3
      refine ⟨O - A, H - O, A - L, cO.sub cA, cH.sub cO, cA.sub cL, ?_, ?_, ?_, by ring, sub37 sO sA, sub37 sH sO,
        sub37 sA sL⟩
      · rw [← e1, abs_of_nonneg (fsub_nonneg hc)]
        exact (rnd_sub_cents hA sO sA).rnd39 (cO.sub cA) (by norm_num)
      · rw [← e2]; exact (rnd_sub_cents hA sH sO).rnd39 (cH.sub cO) (by norm_num)
      · rw [← e3]; exact (rnd_sub_cents hA sA sL).rnd39 (cA.sub cL) (by norm_num)
  have hht := rnd_sub_cents hA sH sL
  have pB := Apx.fl hA hS (s := B) (by linarith)
  have pD := Apx.fl hA hS (s := D) (by linarith)
  have pT := Apx.fl hA hS (s := T) (by linarith)
  have sBD := abs_add_le B D
  have sBDT := abs_add_le (B + D) T
  have p1 := pB.add hA hS pD (by linarith) (by norm_num)
  have p2 := p1.add hA hS pT (by linarith) (by norm_num)
  rw [hb, hh, ht]
  refine ⟨?_, ?_⟩
  · rw [p2.rnd39 ((cB.add cD).add cT) (by norm_num), hht.rnd39 (cH.sub cL) (by norm_num), hBDT]
  · have n1 := pB.near
    have n2 := pD.near
    have n3 := pT.near
    have n4 := hht.near
    norm_num at n1 n2 n3 n4
    rw [abs_le] at n1 n2 n3 n4
    rw [abs_lt]
    constructor <;> linarith [n1.1, n1.2, n2.1, n2.2, n3.1, n3.2, n4.1, n4.2]

/-- The mean of three values in cents, divided in floats. -/
theorem mean3_cents (hA : Accurate) {H L C : ℚ} (sH : |H| ≤ 2 ^ 36) (sL : |L| ≤ 2 ^ 36) (sC : |C| ≤ 2 ^ 36) :
    |fdiv (fadd (fadd (fl H) (fl L)) (fl C)) 3 - (H + L + C) / 3| < 1 / 200 := by
  have hS : (1 : ℚ) ≤ 2 ^ 39 := by norm_num
  have pH := Apx.fl hA hS (s := H) (by linarith)
  have pL := Apx.fl hA hS (s := L) (by linarith)
  have pC := Apx.fl hA hS (s := C) (by linarith)
  have s1 := abs_add_le H L
  have s2 := abs_add_le (H + L) C
  have p1 := pH.add hA hS pL (by linarith) (by norm_num)
  have p2 := p1.add hA hS pC (by linarith) (by norm_num)
  set y := fadd (fadd (fl H) (fl L)) (fl C) with hy
  have n2 := p2.near
  norm_num at n2
  have hyb : |y / 3| ≤ 2 * 2 ^ 39 := by
    rw [abs_div, abs_of_pos (by norm_num : (0 : ℚ) < 3)]
    have h1 := abs_add_le (y - (H + L + C)) (H + L + C)
    rw [sub_add_cancel] at h1
    linarith
  have e := fl_err2 hA hS hyb
  norm_num at e
  unfold fdiv
  rw [abs_le] at n2 e
  rw [abs_lt]
  constructor <;> linarith [n2.1, n2.2, e.1, e.2]

/-- C50, levels, in range: with tick values of at most 2^35 the levels are present and ordered in binary64 too, unless
the pivot is 0; they are the floats of the exact levels of the rounded pivot.  Missing: a pivot of 0 (`C50_false`),
larger values (`C50_not_in_binary64`). -/
theorem C50_levels_in_range_partial (hA : Accurate) (u : Unit') (q m : ℤ) (hm : 1 ≤ m) (fs : FrameSet) (h : List HEv)
    (hF : Feeds u q m fs h) (j : ℕ) (f : Frame) (hf : fs.view[j]? = some f) (r : String) (v p : IndVal)
    (hv : f.get r = some v) (hk : v.ind.kind = .pivotClassic) (hp : Spec.Predecessor fs r j p)
    (h0 : pivotClassic fs.heap v ≠ some 0) (hlo : |p.low.value| ≤ 2 ^ 35) (hhi : |p.high.value| ≤ 2 ^ 35) :
    Spec.Levels fs v ∧
    ∃ H L P, IsCent H ∧ IsCent L ∧ IsCent P ∧ p.high.value = fl H ∧ p.low.value = fl L ∧
      pivotClassic fs.heap v = some (fl P) ∧ L ≤ P ∧ P ≤ H ∧
      support1 fs.heap v = some (fl (2 * P - H)) ∧ support2 fs.heap v = some (fl (P - (H - L))) ∧
      support3 fs.heap v = some (fl (L - 2 * (H - P))) ∧ resistance1 fs.heap v = some (fl (2 * P - L)) ∧
      resistance2 fs.heap v = some (fl (P + (H - L))) ∧ resistance3 fs.heap v = some (fl (H + 2 * (P - L))) := by
  have hpv := ((C41_navigation u q m hm fs h hF j f hf r v hv).1 p).mpr hp
  have hpiv := C50_pivot u q m hm fs h hF j f hf r v p hv hp
  obtain ⟨k, g, -, hg, hgp, -⟩ := hp
  obtain ⟨A, hB, -⟩ := feeds_built hm hF
  rw [(hB.rep hm).view_get] at hg
  obtain ⟨ts, hs⟩ := feeds_summary hm hF (List.mem_of_getElem? hg) hgp
  have a2 := hs.low_le _ hs.high_mem
  have a3 := hs.low_le _ hs.last_mem
  have b3 := hs.le_high _ hs.last_mem
  have hla : |p.last.value| ≤ 2 ^ 35 := by
    rw [abs_le] at *
    exact ⟨by linarith [hlo.1], by linarith [hhi.2]⟩
  obtain ⟨H, cH, vH, sH⟩ := value_cents hA p.high hhi
  obtain ⟨L, cL, vL, sL⟩ := value_cents hA p.low hlo
  obtain ⟨C, cC, vC, sC⟩ := value_cents hA p.last hla
  -- floats of cents are ordered as the cents
  have ord : ∀ {x y : ℚ}, IsCent x → IsCent y → |x| ≤ 2 ^ 36 → |y| ≤ 2 ^ 36 → fl x ≤ fl y → x ≤ y := by
    intro x y cx cy sx sy hxy
    have hS : (1 : ℚ) ≤ 2 ^ 39 := by norm_num
    have n1 := (Apx.fl hA hS (s := x) (by linarith)).near
    have n2 := (Apx.fl hA hS (s := y) (by linarith)).near
    norm_num at n1 n2
    rw [abs_le] at n1 n2
    rw [← cx.cent]
    exact cent_le_of cy (by linarith [n1.1, n1.2, n2.1, n2.2])
  rw [vH, vL, vC] at hpiv
  rw [vL, vH] at a2
  rw [vL, vC] at a3
  rw [vC, vH] at b3
  have dLH := ord cL cH sL sH a2
  have dLC := ord cL cC sL sC a3
  have dCH := ord cC cH sC sH b3
  set x := fdiv (fadd (fadd (fl H) (fl L)) (fl C)) 3 with hx
  have hm3 := mean3_cents hA sH sL sC
  rw [← hx, abs_lt] at hm3
  have cP := isCent_cent x
  have hLP : L ≤ cent x := cent_ge_of cL (by linarith [hm3.1])
  have hPH : cent x ≤ H := cent_le_of cH (by linarith [hm3.2])
  have sP : |cent x| ≤ 2 ^ 36 := by
    rw [abs_le] at *
    exact ⟨by linarith [sL.1], by linarith [sH.2]⟩
  set P := cent x with hPd
  change pivotClassic fs.heap v = some (fl P) at hpiv
  have hP0 : fl P ≠ 0 := fun e => h0 (by rw [hpiv, e])
  have key : ∀ g, pivotLevel fs.heap v g = some (g (fl P) p) := by
    intro g
    unfold pivotLevel pivotOf
    rw [hk]
    simp only [hpiv, if_neg hP0, hpv, Option.map_some]
  have two : ∀ {x : ℚ}, IsCent x → IsCent (2 * x) := by
    intro x hx
    have := hx.mul_int 2
    push_cast at this
    rwa [mul_comm]
  have hS : (1 : ℚ) ≤ 2 ^ 39 := by norm_num
  have aH := Apx.fl hA hS (s := H) (by linarith)
  have aL := Apx.fl hA hS (s := L) (by linarith)
  have aP := Apx.fl hA hS (s := P) (by linarith)
  have sz2 : ∀ {y : ℚ}, |y| ≤ 2 ^ 37 → |2 * y| ≤ 2 ^ 38 := by
    intro y hy; rw [abs_mul, abs_of_pos (by norm_num : (0 : ℚ) < 2)]; linarith
  have szs : ∀ {x y : ℚ}, |x| ≤ 2 ^ 36 → |y| ≤ 2 ^ 36 → |x - y| ≤ 2 ^ 37 := by
    intro x y hx hy; have := abs_sub x y; linarith
  have t2P := aP.twice hA hS (by have := sz2 (y := P) (by linarith); linarith) (by norm_num)
  have sHL := szs sH sL
  have sHP := szs sH sP
  have sPL := szs sP sL
  have aHL := rnd_sub_cents hA sH sL
  have aHP := (rnd_sub_cents hA sH sP).twice hA hS (by have := sz2 sHP; linarith) (by norm_num)
  have aPL := (rnd_sub_cents hA sP sL).twice hA hS (by have := sz2 sPL; linarith) (by norm_num)
  have z2P := sz2 (y := P) (by linarith)
  have e1 : support1 fs.heap v = some (fl (2 * P - H)) := by
    unfold support1
    rw [key, vH]
    have sz := abs_sub (2 * P) H
    rw [(t2P.sub hA hS aH (by linarith) (by norm_num)).rnd39 ((two cP).sub cH) (by norm_num)]
  have e2 : support2 fs.heap v = some (fl (P - (H - L))) := by
    unfold support2
    rw [key, vH, vL]
    have sz := abs_sub P (H - L)
    rw [(aP.sub hA hS aHL (by linarith) (by norm_num)).rnd39 (cP.sub (cH.sub cL)) (by norm_num)]
  have e3 : support3 fs.heap v = some (fl (L - 2 * (H - P))) := by
    unfold support3
    rw [key, vH, vL]
    have sz := abs_sub L (2 * (H - P))
    have sz' := sz2 sHP
    rw [(aL.sub hA hS aHP (by linarith) (by norm_num)).rnd39 (cL.sub (two (cH.sub cP))) (by norm_num)]
  have e4 : resistance1 fs.heap v = some (fl (2 * P - L)) := by
    unfold resistance1
    rw [key, vL]
    have sz := abs_sub (2 * P) L
    rw [(t2P.sub hA hS aL (by linarith) (by norm_num)).rnd39 ((two cP).sub cL) (by norm_num)]
  have e5 : resistance2 fs.heap v = some (fl (P + (H - L))) := by
    unfold resistance2
    rw [key, vH, vL]
    have sz := abs_add_le P (H - L)
    rw [(aP.add hA hS aHL (by linarith) (by norm_num)).rnd39 (cP.add (cH.sub cL)) (by norm_num)]
  have e6 : resistance3 fs.heap v = some (fl (H + 2 * (P - L))) := by
    unfold resistance3
    rw [key, vH, vL]
    have sz := abs_add_le H (2 * (P - L))
    have sz' := sz2 sPL
    rw [(aH.add hA hS aPL (by linarith) (by norm_num)).rnd39 (cH.add (two (cP.sub cL))) (by norm_num)]
  refine ⟨⟨_, _, _, _, _, _, _, e3, e2, e1, hpiv, e4, e5, e6, ?_, ?_, ?_, ?_, ?_, ?_⟩,
    H, L, P, cH, cL, cP, vH, vL, hpiv, hLP, hPH, e1, e2, e3, e4, e5, e6⟩ <;> exact fl_mono (by linarith)

end

/-- C50, levels in binary64. -/
theorem C50_levels_binary64_partial : letI := Arith.binary64
    ∀ (u : Unit') (q m : ℤ), 1 ≤ m → ∀ (fs : FrameSet) (h : List HEv), Feeds u q m fs h →
    ∀ (j : ℕ) (f : Frame), fs.view[j]? = some f → ∀ (r : String) (v p : IndVal), f.get r = some v →
    v.ind.kind = .pivotClassic → Spec.Predecessor fs r j p → pivotClassic fs.heap v ≠ some 0 →
    |p.low.value| ≤ 2 ^ 35 → |p.high.value| ≤ 2 ^ 35 → Spec.Levels fs v := by
  letI := Arith.binary64
  intro u q m hm fs h hF j f hf r v p hv hk hp h0 hlo hhi
  exact (C50_levels_in_range_partial accurate_binary64 u q m hm fs h hF j f hf r v p hv hk hp h0 hlo hhi).1

section examples

open Demo (with1 at' value obs value_some feeds1)

/-- C42 in binary64: the candle of `C42_not_in_binary64`; the height is 0.19999999999999998, the body 0.2. -/
example : letI := Arith.binary64
    ∃ fs h f v, Feeds .minute 1 5 fs h ∧ f ∈ fs.heap ∧ f.get "c" = some v ∧ jOpen v ≠ 0 ∧ jLast v ≠ 0 ∧
      |v.low.value| ≤ 2 ^ 35 ∧ |v.high.value| ≤ 2 ^ 35 ∧ (jOhlc v).body = some (fl (2 / 10)) ∧
      (jOhlc v).height ≠ fl (2 / 10) ∧ rnd (jOhlc v).height = fl (2 / 10) := by
  letI := Arith.binary64
  obtain ⟨fs, hs, h1, h2, h3, -, h5⟩ := feeds1 (u := .minute) (q := 1) (m := 5) (by decide)
    (ind := ⟨"c", .japanese, false⟩) (l := [at' 0 true (fl (1 / 10)), at' 10 true (fl (3 / 10))]) (by decide +kernel)
  obtain ⟨f, v, hf, hv, hx⟩ := value_some (g := fun v => decide (jOpen v ≠ 0 ∧ jLast v ≠ 0 ∧
      |v.low.value| ≤ 2 ^ 35 ∧ |v.high.value| ≤ 2 ^ 35 ∧ (jOhlc v).body = some (fl (2 / 10)) ∧
      (jOhlc v).height ≠ fl (2 / 10) ∧ rnd (jOhlc v).height = fl (2 / 10)))
    (obs h5 (g := fun fs => (value fs 0 "c").map (fun v => decide (jOpen v ≠ 0 ∧ jLast v ≠ 0 ∧
      |v.low.value| ≤ 2 ^ 35 ∧ |v.high.value| ≤ 2 ^ 35 ∧ (jOhlc v).body = some (fl (2 / 10)) ∧
      (jOhlc v).height ≠ fl (2 / 10) ∧ rnd (jOhlc v).height = fl (2 / 10))))
      (x := some true) (by decide +kernel))
  exact ⟨fs, hs, f, v, h1, List.mem_of_getElem? hf, hv, of_decide_eq_true hx⟩

/-- C50 in binary64: after a minute with high 0.7, low 0.1 and last 0.1. -/
example : letI := Arith.binary64
    ∃ fs h f v, Feeds .minute 1 5 fs h ∧ fs.view[1]? = some f ∧ f.get "p" = some v ∧ v.ind.kind = .pivotClassic ∧
      (∃ p, Spec.Predecessor fs "p" 1 p ∧ |p.low.value| ≤ 2 ^ 35 ∧ |p.high.value| ≤ 2 ^ 35) ∧
      pivotClassic fs.heap v = some (fl (30 / 100)) ∧ support1 fs.heap v = some (fl (-10 / 100)) ∧
      resistance1 fs.heap v = some (fl (50 / 100)) ∧ support3 fs.heap v = some (fl (-70 / 100)) ∧
      resistance3 fs.heap v = some (fl (110 / 100)) := by
  letI := Arith.binary64
  obtain ⟨fs, hs, h1, -, -, -, h5⟩ := feeds1 (u := .minute) (q := 1) (m := 5) (by decide)
    (ind := ⟨"p", .pivotClassic, false⟩)
    (l := [at' 0 true (fl (7 / 10)), at' 10 true (fl (1 / 10)), at' 60 true (fl (4 / 10))]) (by decide +kernel)
  obtain ⟨f, v, hf, hv, hx⟩ := value_some
    (g := fun v => ((v.previous fs.heap).map (fun p => decide (|p.low.value| ≤ 2 ^ 35 ∧ |p.high.value| ≤ 2 ^ 35)),
      v.ind.kind, [pivotClassic fs.heap v, support1 fs.heap v,
      resistance1 fs.heap v, support3 fs.heap v, resistance3 fs.heap v]))
    (obs h5 (g := fun fs => (value fs 1 "p").map (fun v => ((v.previous fs.heap).map
        (fun p => decide (|p.low.value| ≤ 2 ^ 35 ∧ |p.high.value| ≤ 2 ^ 35)), v.ind.kind,
      [pivotClassic fs.heap v, support1 fs.heap v, resistance1 fs.heap v, support3 fs.heap v,
      resistance3 fs.heap v])))
      (x := some (some true, .pivotClassic, [some (fl (30 / 100)), some (fl (-10 / 100)), some (fl (50 / 100)),
        some (fl (-70 / 100)), some (fl (110 / 100))])) (by decide +kernel))
  simp only [Prod.mk.injEq, List.cons.injEq, and_true] at hx
  obtain ⟨hx1, hx2, hx3⟩ := hx
  obtain ⟨p, hp, hq⟩ := Option.map_eq_some_iff.mp hx1
  have hview := obs h5 (g := fun fs => fs.heap.length) (x := 2) (by decide +kernel)
  have hv0 : fs.view = fs.heap := view_all (by decide) h1 (by rw [hview]; decide)
  have hf' : fs.view[1]? = some f := by rw [hv0]; exact hf
  exact ⟨fs, hs, f, v, h1, hf', hv, hx2,
    ⟨p, ((C41_navigation .minute 1 5 (by decide) fs hs h1 1 f hf' "p" v hv).1 p).mp hp, of_decide_eq_true hq⟩, hx3⟩

end examples

end Estrade
