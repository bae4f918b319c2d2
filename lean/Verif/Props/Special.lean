import Verif.Special
import Verif.Lemmas.Range
import Verif.Props.Trades
import Mathlib.Order.WithBot

/-!
# C75: quotes that are not ordinary numbers
-/

set_option linter.style.haveILetI false
set_option linter.unusedSectionVars false
set_option autoImplicit false
set_option exponentiation.threshold 1100

namespace Estrade

/-! ## Order -/

/-- Spec: the extended number a float denotes; NaN denotes none. -/
def Spec.denotes : XF → Option (WithBot (WithTop ℚ))
  | .nan => none
  | .inf true => some ⊥
  | .inf false => some ((⊤ : WithTop ℚ) : WithBot (WithTop ℚ))
  | .fin q => some (((q : ℚ) : WithTop ℚ) : WithBot (WithTop ℚ))

/-- Spec: `x` and `y` are numbers and `x` is smaller. -/
def Spec.Below (x y : XF) : Prop := ∃ a b, Spec.denotes x = some a ∧ Spec.denotes y = some b ∧ a < b

/-- Spec: `x` and `y` are numbers and `x` is not larger. -/
def Spec.AtMost (x y : XF) : Prop := ∃ a b, Spec.denotes x = some a ∧ Spec.denotes y = some b ∧ a ≤ b

theorem XF.lt_iff (x y : XF) : x.lt y = true ↔ Spec.Below x y := by
  unfold Spec.Below
  rcases x with _ | (_ | _) | p <;> rcases y with _ | (_ | _) | q <;> simp [XF.lt, Spec.denotes]
  exact WithBot.coe_lt_coe.mpr (WithTop.coe_lt_top p)

theorem atMost_iff (x y : XF) : Spec.AtMost x y ↔ x ≠ .nan ∧ y ≠ .nan ∧ ¬ Spec.Below y x := by
  unfold Spec.AtMost Spec.Below
  rcases x with _ | (_ | _) | p <;> rcases y with _ | (_ | _) | q <;> simp [Spec.denotes]

theorem Below.trans_atMost {x y z : XF} (h : Spec.Below x y) (h' : Spec.AtMost y z) : Spec.Below x z := by
  obtain ⟨a, b, e1, e2, l⟩ := h
  obtain ⟨b', c, e3, e4, l'⟩ := h'
  rw [e2, Option.some.injEq] at e3
  subst e3
  exact ⟨a, c, e1, e4, lt_of_lt_of_le l l'⟩

theorem AtMost.trans {x y z : XF} (h : Spec.AtMost x y) (h' : Spec.AtMost y z) : Spec.AtMost x z := by
  obtain ⟨a, b, e1, e2, l⟩ := h
  obtain ⟨b', c, e3, e4, l'⟩ := h'
  rw [e2, Option.some.injEq] at e3
  subst e3
  exact ⟨a, c, e1, e4, l.trans l'⟩

theorem AtMost.refl {x : XF} (h : x ≠ .nan) : Spec.AtMost x x := by
  rw [atMost_iff]
  refine ⟨h, h, ?_⟩
  rintro ⟨a, b, e1, e2, l⟩
  rw [e1, Option.some.injEq] at e2
  exact absurd l (by rw [e2]; exact lt_irrefl _)

theorem Below.atMost {x y : XF} (h : Spec.Below x y) : Spec.AtMost x y := by
  obtain ⟨a, b, e1, e2, l⟩ := h
  exact ⟨a, b, e1, e2, l.le⟩

theorem XF.lt_nan_left (x : XF) : XF.nan.lt x = false := rfl

theorem XF.lt_nan_right (x : XF) : x.lt XF.nan = false := by
  rcases x with _ | s | q <;> rfl

section
variable [Arith]

/-! ## Ticks -/

/-- C75, the constructor: a tick is accepted exactly when its datetime has a zone, its quotes are numbers with a float, and
it is not the case that the ask is a number below the bid. -/
theorem C75_accepts_iff (d : RawDT) (bid ask : XVal) (t : XTick) :
    XTick.new d bid ask = .ok t ↔
      d.check = .ok t.dt ∧ ask.toFloat = .ok t.ask ∧ bid.toFloat = .ok t.bid ∧ ¬ Spec.Below t.ask t.bid := by
  unfold XTick.new
  obtain ⟨tdt, tb, ta⟩ := t
  rcases hd : d.check with e | dt <;> rcases ha : ask.toFloat with e' | a <;> rcases hb : bid.toFloat with e'' | b
  all_goals simp [bind, Except.bind]
  rw [← XF.lt_iff]
  by_cases h : a.lt b = true
  · rw [if_pos h]
    simp only [reduceCtorEq, false_iff, not_and]
    rintro _ rfl rfl
    simpa using h
  · rw [if_neg h]
    simp only [Except.ok.injEq, XTick.mk.injEq]
    constructor
    · rintro ⟨rfl, rfl, rfl⟩; exact ⟨rfl, rfl, rfl, by simpa using h⟩
    · rintro ⟨rfl, rfl, rfl, _⟩; exact ⟨rfl, rfl, rfl⟩

/-- C75: an accepted tick without NaN is ordered.  Missing: NaN, for which the claim is false (`C75_false`). -/
theorem C75_ordered_partial (d : RawDT) (bid ask : XVal) (t : XTick) (h : XTick.new d bid ask = .ok t)
    (hb : t.bid ≠ .nan) (ha : t.ask ≠ .nan) : Spec.AtMost t.bid t.ask := by
  rw [atMost_iff]
  exact ⟨hb, ha, ((C75_accepts_iff d bid ask t).mp h).2.2.2⟩

/-- C75: NaN is accepted with anything, on either side. -/
theorem C75_nan_accepted (d : DT) (x : XF) :
    XTick.new (.aware d) (.float .nan) (.float x) = .ok ⟨d, .nan, x⟩ ∧
    XTick.new (.aware d) (.float x) (.float .nan) = .ok ⟨d, x, .nan⟩ := by
  constructor
  · rw [C75_accepts_iff]
    refine ⟨rfl, rfl, rfl, ?_⟩
    rw [← XF.lt_iff, XF.lt_nan_right]; simp
  · rw [C75_accepts_iff]
    refine ⟨rfl, rfl, rfl, ?_⟩
    rw [← XF.lt_iff, XF.lt_nan_left]; simp

theorem abs_fl_le {x M : ℚ} (h : |x| ≤ M) : |fl x| ≤ 2 * M := by
  have h1 := Arith.nearest x 0
  rw [fl_zero, zero_sub, abs_neg] at h1
  have h2 := abs_add_le (fl x - x) x
  rw [sub_add_cancel] at h2
  linarith

theorem abs_cent_le {x M : ℚ} (h : |x| ≤ M) (hM : 1 ≤ M) : |cent x| ≤ 2 * M := by
  have h1 := cent_abs x
  have h2 := abs_add_le (cent x - x) x
  rw [sub_add_cancel, abs_sub_comm] at h2
  linarith

theorem abs_rnd_le {x M : ℚ} (h : |x| ≤ M) (hM : 1 ≤ M) : |rnd x| ≤ 4 * M := by
  have := abs_fl_le (abs_cent_le h hM)
  unfold rnd; linarith

theorem XF.ofRat_fin {q : ℚ} (h : |q| < 2 ^ 1023) : XF.ofRat q = .fin (fl q) := by
  unfold XF.ofRat
  rw [if_pos]
  have h1 : |fl q| ≤ 2 * |q| := abs_fl_le le_rfl
  have h2 : (2 : ℚ) * 2 ^ 1023 = 2 ^ 1024 := by rw [← pow_succ']
  linarith

theorem XF.ofInt_fin {n : ℤ} (h : |(n : ℚ)| < 2 ^ 1023) : XF.ofInt n = .ok (.fin (fl n)) := by
  unfold XF.ofInt
  rw [if_pos]
  have h1 : |fl (n : ℚ)| ≤ 2 * |(n : ℚ)| := abs_fl_le le_rfl
  have h2 : (2 : ℚ) * 2 ^ 1023 = 2 ^ 1024 := by rw [← pow_succ']
  linarith

theorem XF.add_fin {a b : ℚ} (h : |a + b| < 2 ^ 1023) : XF.add (.fin a) (.fin b) = .fin (fadd a b) := XF.ofRat_fin h

theorem XF.sub_fin {a b : ℚ} (h : |a - b| < 2 ^ 1023) : XF.sub (.fin a) (.fin b) = .fin (fsub a b) := by
  show XF.ofRat (a + -b) = _
  rw [← sub_eq_add_neg]
  exact XF.ofRat_fin h

theorem XF.mul_fin {a b : ℚ} (h : |a * b| < 2 ^ 1023) : XF.mul (.fin a) (.fin b) = .fin (fmul a b) := XF.ofRat_fin h

/-- The tick of the extended model with the same quotes. -/
def Tick.lift (t : Tick) : XTick := ⟨t.dt, .fin t.bid, .fin t.ask⟩

/-- The value of the extended model. -/
def PyVal.lift : PyVal → XVal
  | .int n => .int n
  | .float x => .float (.fin x)
  | .other => .other

/-- Spec: an int has a float. -/
def Spec.HasFloat : PyVal → Prop
  | .int n => |(n : ℚ)| < 2 ^ 1023
  | _ => True

theorem toFloat_lift {v : PyVal} (h : Spec.HasFloat v) : v.lift.toFloat = v.toFloat.map XF.fin := by
  rcases v with n | x | _
  · exact XF.ofInt_fin h
  · rfl
  · rfl

/-- C75, ordinary quotes: on numbers with a float the constructor of the rest of the model and the one with all floats
agree, exceptions included. -/
theorem C75_finite_constructor (d : RawDT) (bid ask : PyVal) (hb : Spec.HasFloat bid) (ha : Spec.HasFloat ask) :
    XTick.new d bid.lift ask.lift = (Tick.new d bid ask).map Tick.lift := by
  unfold XTick.new Tick.new
  rw [toFloat_lift hb, toFloat_lift ha]
  rcases d.check with e | dt <;> rcases ask.toFloat with e' | a <;> rcases bid.toFloat with e'' | b
  all_goals simp [bind, Except.bind, Except.map, XF.lt]
  split_ifs <;> rfl

/-- C75, ordinary quotes: spread and value are those of the rest of the model for quotes below 2^1010 in size. -/
theorem C75_finite_value (t : Tick) (hb : |t.bid| ≤ 2 ^ 1010) (ha : |t.ask| ≤ 2 ^ 1010) :
    t.lift.spread = .fin t.spread ∧ t.lift.value = .fin t.value := by
  have h0 : (1 : ℚ) ≤ 2 ^ 1010 := one_le_pow₀ (by norm_num)
  have e : (2 : ℚ) ^ 1023 = 2 ^ 13 * 2 ^ 1010 := by rw [← pow_add]
  have hd := abs_sub t.ask t.bid
  have hs : t.lift.spread = .fin t.spread := by
    unfold XTick.spread Tick.lift
    simp only
    rw [XF.sub_fin (by rw [e]; linarith)]
    rfl
  refine ⟨hs, ?_⟩
  have h1 : |fsub t.ask t.bid| ≤ 2 * (2 * 2 ^ 1010) := abs_fl_le (by linarith)
  have h2 : |t.spread| ≤ 4 * (2 * (2 * 2 ^ 1010)) := abs_rnd_le h1 (by linarith)
  have h3 : |t.spread / 2| ≤ 8 * 2 ^ 1010 := by
    rw [abs_div, abs_of_pos (by norm_num : (0 : ℚ) < 2)]; linarith
  have h4 : |fdiv t.spread 2| ≤ 2 * (8 * 2 ^ 1010) := abs_fl_le h3
  have h5 := abs_add_le t.bid (fdiv t.spread 2)
  unfold XTick.value
  rw [hs]
  unfold XF.half
  simp only
  rw [XF.ofRat_fin (by rw [e]; linarith)]
  have : (t.lift).bid = .fin t.bid := rfl
  rw [this, show fl (t.spread / 2) = fdiv t.spread 2 from rfl, XF.add_fin (by rw [e]; linarith)]
  rfl

/-! ## Frames -/

/-- The frame of a first tick and the ticks after it. -/
def XFrame.of (t : XTick) (ts : List XTick) : XFrame := ts.foldl XFrame.onNewTick (XFrame.new t)

theorem XFrame.of_concat (t : XTick) (ts : List XTick) (u : XTick) : XFrame.of t (ts ++ [u]) = (XFrame.of t ts).onNewTick u := by
  unfold XFrame.of; rw [List.foldl_append]; rfl

/-- C75, frames: a frame whose first tick has value NaN keeps it as its high and its low for ever. -/
theorem C75_frame_nan_first (t : XTick) (ts : List XTick) (h : t.value = .nan) :
    (XFrame.of t ts).high = t ∧ (XFrame.of t ts).low = t := by
  induction ts using List.reverseRecOn with
  | nil => exact ⟨rfl, rfl⟩
  | append_singleton ts u ih =>
    rw [XFrame.of_concat]
    unfold XFrame.onNewTick
    simp only [ih.1, ih.2, h, XF.lt_nan_left, XF.lt_nan_right, Bool.false_eq_true, if_false, and_self]

/-- C75, frames: ticks with value NaN change neither high nor low: both are those of the frame that never saw them. -/
theorem C75_frame_skips_nan (t : XTick) (ts : List XTick) :
    (XFrame.of t ts).high = (XFrame.of t (ts.filter fun u => u.value ≠ .nan)).high ∧
    (XFrame.of t ts).low = (XFrame.of t (ts.filter fun u => u.value ≠ .nan)).low := by
  induction ts using List.reverseRecOn with
  | nil => exact ⟨rfl, rfl⟩
  | append_singleton ts u ih =>
    rw [XFrame.of_concat, List.filter_append]
    by_cases hu : u.value = .nan
    · have : [u].filter (fun u => u.value ≠ .nan) = [] := by simp [hu]
      rw [this, List.append_nil]
      unfold XFrame.onNewTick
      simp only [hu, XF.lt_nan_left, XF.lt_nan_right, Bool.false_eq_true, if_false]
      exact ih
    · have : [u].filter (fun u => u.value ≠ .nan) = [u] := by simp [hu]
      rw [this, XFrame.of_concat]
      unfold XFrame.onNewTick
      simp only [ih.1, ih.2]
      split_ifs <;> simp_all

/-- C75: whatever the values, a frame counts every tick it is given and knows the first and the last of them. -/
theorem C75_frame_counts (t : XTick) (ts : List XTick) :
    (XFrame.of t ts).nbTicks = ts.length + 1 ∧ (XFrame.of t ts).first = t ∧ (XFrame.of t ts).last = (t :: ts).getLast (by simp) := by
  induction ts using List.reverseRecOn with
  | nil => exact ⟨rfl, rfl, rfl⟩
  | append_singleton ts u ih =>
    rw [XFrame.of_concat, List.length_append, List.length_singleton]
    unfold XFrame.onNewTick
    dsimp only
    split_ifs <;> exact ⟨by rw [← ih.1], ih.2.1, by simp⟩

/-- C75, frames: when the first tick has a value, the high and the low are ticks of the frame with a value, and the
value of every tick that has one lies between theirs.  Missing: a first tick with value NaN (`C75_false`). -/
theorem C75_frame_extremes_partial (t : XTick) (ts : List XTick) (h : t.value ≠ .nan) :
    (XFrame.of t ts).high ∈ t :: ts ∧ (XFrame.of t ts).low ∈ t :: ts ∧
    ∀ u ∈ t :: ts, u.value ≠ .nan →
      Spec.AtMost (XFrame.of t ts).low.value u.value ∧ Spec.AtMost u.value (XFrame.of t ts).high.value := by
  induction ts using List.reverseRecOn with
  | nil =>
    refine ⟨by simp [XFrame.of, XFrame.new], by simp [XFrame.of, XFrame.new], ?_⟩
    intro u hu hv
    rw [List.mem_singleton] at hu
    subst hu
    exact ⟨AtMost.refl hv, AtMost.refl hv⟩
  | append_singleton ts u ih =>
    obtain ⟨m1, m2, ih⟩ := ih
    have w : ∀ x ∈ t :: ts, x ∈ t :: (ts ++ [u]) := by
      intro x hx; rw [← List.cons_append]; exact List.mem_append_left _ hx
    have hl := ih t (by simp) h
    rw [XFrame.of_concat]
    unfold XFrame.onNewTick
    simp only
    by_cases h1 : (XFrame.of t ts).high.value.lt u.value = true
    · rw [if_pos h1]
      have b1 := (XF.lt_iff _ _).mp h1
      refine ⟨by simp, w _ m2, ?_⟩
      intro x hx hv
      rw [← List.cons_append, List.mem_append, List.mem_singleton] at hx
      rcases hx with hx | rfl
      · exact ⟨(ih x hx hv).1, AtMost.trans (ih x hx hv).2 (Below.atMost b1)⟩
      · exact ⟨AtMost.trans (AtMost.trans hl.1 hl.2) (Below.atMost b1), AtMost.refl hv⟩
    · rw [if_neg h1]
      by_cases h2 : u.value.lt (XFrame.of t ts).low.value = true
      · rw [if_pos h2]
        have b2 := (XF.lt_iff _ _).mp h2
        refine ⟨w _ m1, by simp, ?_⟩
        intro x hx hv
        rw [← List.cons_append, List.mem_append, List.mem_singleton] at hx
        rcases hx with hx | rfl
        · exact ⟨AtMost.trans (Below.atMost b2) (ih x hx hv).1, (ih x hx hv).2⟩
        · exact ⟨AtMost.refl hv, AtMost.trans (Below.atMost b2) (AtMost.trans hl.1 hl.2)⟩
      · rw [if_neg h2]
        refine ⟨w _ m1, w _ m2, ?_⟩
        intro x hx hv
        rw [← List.cons_append, List.mem_append, List.mem_singleton] at hx
        rcases hx with hx | rfl
        · exact ih x hx hv
        · rw [XF.lt_iff] at h1 h2
          exact ⟨(atMost_iff _ _).mpr ⟨((atMost_iff _ _).mp hl.1).1, hv, h2⟩,
            (atMost_iff _ _).mpr ⟨hv, ((atMost_iff _ _).mp hl.2).2.1, h1⟩⟩

/-! ## Trades -/

/-- Spec: a public call on a trade, with any floats. -/
inductive Spec.XOp
  | update (v : XF)
  | tick (k : XTick)
  | close (v : XF) (q : Option ℤ)
  | closeTick (k : XTick) (q : Option ℤ)

/-- The calls of the model. -/
def Spec.XOp.run (t : XTrade) : Spec.XOp → Except PyErr XTrade
  | .update v => t.update v
  | .tick k => t.updateFromTick k
  | .close v q => .ok (t.close v q)
  | .closeTick k q => t.closeFromTick k q

/-- The trade after a list of calls. -/
def XTrade.after (t : XTrade) : List Spec.XOp → Except PyErr XTrade
  | [] => .ok t
  | o :: os => do
    let t ← o.run t
    t.after os

theorem XF.add_nan_left (x : XF) : XF.nan.add x = .nan := rfl

theorem XF.add_nan_right (x : XF) : x.add .nan = .nan := by rcases x with _ | s | q <;> rfl

theorem XF.mul_nan_left (x : XF) : XF.nan.mul x = .nan := rfl

theorem XF.neg_eq_nan {x : XF} : x.neg = .nan ↔ x = .nan := by rcases x with _ | s | q <;> simp [XF.neg]

theorem gain_nan (d : Dir) (v : XF) : XTrade.gain d .nan v = .nan := by
  cases d
  · unfold XTrade.gain XF.sub
    simp only [XF.neg, XF.add_nan_right]
    rfl
  · rfl

theorem foldl_add_nan (l : List XF) : l.foldl XF.add .nan = .nan := by
  induction l with
  | nil => rfl
  | cons x l ih => exact ih

theorem sum_nan {l : List XF} (h : XF.nan ∈ l) : XF.sum l = .nan := by
  obtain ⟨a, b, rfl⟩ := List.append_of_mem h
  unfold XF.sum
  rw [List.foldl_append, List.foldl_cons, XF.add_nan_right, foldl_add_nan]

theorem except_bind {α β : Type} {x : Except PyErr α} {f : α → Except PyErr β} {b : β} (h : (x >>= f) = .ok b) :
    ∃ a, x = .ok a ∧ f a = .ok b := by
  rcases x with e | a
  · cases h
  · exact ⟨a, rfl, h⟩

theorem mapM_mem {α β : Type} {f : α → Except PyErr β} : ∀ {l : List α} {r : List β}, l.mapM f = .ok r →
    List.Forall₂ (fun a b => f a = .ok b) l r
  | [], r, h => by
    rw [List.mapM_nil] at h
    cases h
    exact .nil
  | a :: l, r, h => by
    rw [List.mapM_cons] at h
    obtain ⟨b, hb, h⟩ := except_bind h
    obtain ⟨bs, hbs, h⟩ := except_bind h
    cases h
    exact .cons hb (mapM_mem hbs)

/-- What no call changes. -/
theorem xrun_frame {t t' : XTrade} {o : Spec.XOp} (h : o.run t = .ok t') :
    t'.openValue = t.openValue ∧ t'.dir = t.dir ∧ t'.openQty = t.openQty := by
  have hmm : ∀ {t t' : XTrade}, t.updateMinMax = .ok t' →
      t'.openValue = t.openValue ∧ t'.dir = t.dir ∧ t'.openQty = t.openQty := by
    intro t t' h
    obtain ⟨r, _, h⟩ := except_bind h
    simp only [Except.ok.injEq] at h
    subst h
    split_ifs <;> exact ⟨rfl, rfl, rfl⟩
  have hup : ∀ {t t' : XTrade} {v : XF}, t.update v = .ok t' →
      t'.openValue = t.openValue ∧ t'.dir = t.dir ∧ t'.openQty = t.openQty := by
    intro t t' v h
    unfold XTrade.update at h
    split_ifs at h
    · cases h; exact ⟨rfl, rfl, rfl⟩
    · have := hmm h
      exact this
  cases o with
  | update v => exact hup h
  | tick k => exact hup h
  | close v q => cases h; exact ⟨rfl, rfl, rfl⟩
  | closeTick k q =>
    obtain ⟨u, hu, h⟩ := except_bind h
    cases h
    have := hup (show t.update _ = .ok u from hu)
    exact this

theorem xafter_frame {ops : List Spec.XOp} : ∀ {t t' : XTrade}, t.after ops = .ok t' →
    t'.openValue = t.openValue ∧ t'.dir = t.dir ∧ t'.openQty = t.openQty := by
  induction ops with
  | nil => intro t t' h; cases h; exact ⟨rfl, rfl, rfl⟩
  | cons o os ih =>
    intro t t' h
    obtain ⟨u, hu, h⟩ := except_bind h
    obtain ⟨a, b, c⟩ := ih h
    obtain ⟨a', b', c'⟩ := xrun_frame hu
    exact ⟨a.trans a', b.trans b', c.trans c'⟩

/-- C75, trades: a trade opened at NaN has the result NaN whatever is done with it, as long as it has units: opened units
count NaN each, and so do closed ones. -/
theorem C75_nan_open (t t' : XTrade) (ops : List Spec.XOp) (ho : t.openValue = .nan) (hq : t.openQty ≠ 0)
    (h : t.after ops = .ok t') (r : XF) (hr : t'.result = .ok r) : r = .nan := by
  obtain ⟨eo, _, eq⟩ := xafter_frame h
  rw [ho] at eo
  obtain ⟨a, ha, hr⟩ := except_bind hr
  obtain ⟨b, hb, hr⟩ := except_bind hr
  simp only [Except.ok.injEq] at hr
  subst hr
  by_cases hc : t'.closed = true
  · have hne : t'.closes ≠ [] := by
      intro h0
      unfold XTrade.closed XTrade.openedQty XTrade.closedQty at hc
      rw [h0] at hc
      simp only [List.map_nil, List.sum_nil, sub_zero, decide_eq_true_eq] at hc
      exact hq (eq ▸ hc)
    obtain ⟨l, hl, hb⟩ := except_bind hb
    simp only [Except.ok.injEq] at hb
    subst hb
    have hF := mapM_mem hl
    obtain ⟨c, cs, hcs⟩ := List.exists_cons_of_ne_nil hne
    rw [hcs] at hF
    cases hF with
    | cons hx _ =>
      obtain ⟨n, _, hx⟩ := except_bind hx
      rw [eo, gain_nan, XF.mul_nan_left] at hx
      simp only [XF.round2, Except.ok.injEq] at hx
      subst hx
      rw [sum_nan (by simp), XF.add_nan_right]
  · obtain ⟨n, _, ha⟩ := except_bind ha
    unfold XTrade.openedResultAvg at ha
    rw [if_neg hc, eo, gain_nan, XF.mul_nan_left] at ha
    simp only [Except.ok.injEq] at ha
    subst ha
    rfl

theorem xmm_nan {t t' : XTrade} (h : t.updateMinMax = .ok t') :
    (t.maxRes = .nan → t'.maxRes = .nan) ∧ (t.minRes = .nan → t'.minRes = .nan) := by
  obtain ⟨r, _, h⟩ := except_bind h
  simp only [Except.ok.injEq] at h
  subst h
  constructor
  · intro hm
    rw [hm, XF.lt_nan_left]
    simp only [Bool.false_eq_true, if_false]
    split_ifs <;> exact hm
  · intro hm
    by_cases h1 : t.maxRes.lt r = true
    · rw [if_pos h1]
      simp only [hm, XF.lt_nan_right, Bool.false_eq_true, if_false]
    · rw [if_neg h1, hm, XF.lt_nan_right]
      simp only [Bool.false_eq_true, if_false]
      exact hm

theorem xup_nan {t t' : XTrade} {v : XF} (h : t.update v = .ok t') :
    (t.maxRes = .nan → t'.maxRes = .nan) ∧ (t.minRes = .nan → t'.minRes = .nan) := by
  unfold XTrade.update at h
  split_ifs at h
  · cases h; exact ⟨id, id⟩
  · have := xmm_nan h
    exact this

/-- C75, trades: recorded extremes that are NaN stay NaN for ever, even after the result has become a number again. -/
theorem C75_nan_extremes_stick (t t' : XTrade) (ops : List Spec.XOp) (h : t.after ops = .ok t') :
    (t.maxRes = .nan → t'.maxRes = .nan) ∧ (t.minRes = .nan → t'.minRes = .nan) := by
  induction ops generalizing t with
  | nil => cases h; exact ⟨id, id⟩
  | cons o os ih =>
    obtain ⟨u, hu, h⟩ := except_bind h
    have h1 := ih u h
    have h2 : (t.maxRes = .nan → u.maxRes = .nan) ∧ (t.minRes = .nan → u.minRes = .nan) := by
      cases o with
      | update v => exact xup_nan hu
      | tick k => exact xup_nan hu
      | close v q => cases hu; exact ⟨id, id⟩
      | closeTick k q =>
        obtain ⟨x, hx, hu⟩ := except_bind hu
        cases hu
        have := xup_nan (show t.update _ = .ok x from hx)
        exact this
    exact ⟨fun e => h1.1 (h2.1 e), fun e => h1.2 (h2.2 e)⟩

/-- C75, trades: an update with NaN leaves the extremes alone and is forgotten at the next update: the trade is then what it
would have been without it. -/
theorem C75_nan_update_forgotten (t t' : XTrade) (v : XF) (h : t.update .nan = .ok t') :
    t'.maxRes = t.maxRes ∧ t'.minRes = t.minRes ∧ t'.update v = t.update v := by
  unfold XTrade.update at h
  by_cases hc : t.closed = true
  · rw [if_pos hc] at h
    cases h
    exact ⟨rfl, rfl, rfl⟩
  · rw [if_neg hc] at h
    obtain ⟨r, hr, h⟩ := except_bind h
    have hnan : r = .nan := by
      obtain ⟨a, ha, hr⟩ := except_bind hr
      obtain ⟨b, _, hr⟩ := except_bind hr
      obtain ⟨n, _, ha⟩ := except_bind ha
      have hg : XTrade.gain t.dir t.openValue .nan = .nan := by
        cases t.dir
        · rfl
        · unfold XTrade.gain XF.sub
          simp only [XF.neg, XF.add_nan_right]; rfl
      have hav : ({ t with curClose := XF.nan } : XTrade).openedResultAvg = .nan := by
        unfold XTrade.openedResultAvg
        rw [if_neg (by exact hc)]
        exact hg
      rw [hav] at ha
      simp only [Except.ok.injEq, XF.mul_nan_left] at ha hr
      subst ha
      rw [← hr, XF.add_nan_left]
    subst hnan
    simp only [XF.lt_nan_left, XF.lt_nan_right, Bool.false_eq_true, if_false, Except.ok.injEq] at h
    subst h
    refine ⟨rfl, rfl, ?_⟩
    unfold XTrade.update
    rw [if_neg hc, if_neg (by exact hc)]

/-! ## Trades on ordinary numbers -/

/-- The numbers of a trade of the rest of the model. -/
def Trade.lift (t : Trade) : XTrade :=
  ⟨t.dir, t.openQty, t.closes.map fun c => ⟨.fin c.closeValue, c.qty⟩, .fin t.openValue, .fin t.curClose, .fin t.maxRes,
    .fin t.minRes⟩

/-- The same call with the same numbers. -/
def Spec.TradeOp.lift : Spec.TradeOp → Spec.XOp
  | .update v => .update (.fin v)
  | .tick k => .tick k.lift
  | .close v _ q => .close (.fin v) q
  | .closeTick k q => .closeTick k.lift q

/-- Spec: the numbers of a call: prices of at most 2^300, a request of at most `M` units. -/
def Spec.TradeOp.Within (M : ℤ) : Spec.TradeOp → Prop
  | .update v => |v| ≤ 2 ^ 300
  | .tick k => |k.bid| ≤ 2 ^ 300 ∧ |k.ask| ≤ 2 ^ 300
  | .close v _ q => |v| ≤ 2 ^ 300 ∧ ∀ n, q = some n → |n| ≤ M
  | .closeTick k q => |k.bid| ≤ 2 ^ 300 ∧ |k.ask| ≤ 2 ^ 300 ∧ ∀ n, q = some n → |n| ≤ M

/-- The trade is in range after at most `k` closes. -/
structure Tame (M : ℤ) (k : ℕ) (t : Trade) : Prop where
  entry : |t.openValue| ≤ 2 ^ 300
  price : |t.curClose| ≤ 2 ^ 300
  closes : ∀ c ∈ t.closes, |c.closeValue| ≤ 2 ^ 300 ∧ |c.qty| ≤ 2 ^ 53
  count : t.closes.length ≤ k
  units : |t.openedQty| ≤ (k + 1) * M

theorem lift_openedQty (t : Trade) : t.lift.openedQty = t.openedQty := by
  unfold XTrade.openedQty XTrade.closedQty Trade.openedQty Trade.closedQty Trade.lift
  rw [List.map_map]; rfl

theorem lift_closed (t : Trade) : t.lift.closed = t.closed := by
  unfold XTrade.closed Trade.closed
  rw [lift_openedQty]

/-- `round(exit - entry, 2)` of the rest of the model. -/
def gainOf (d : Dir) (o v : ℚ) : ℚ :=
  match d with
  | .buy => rnd (fsub v o)
  | .sell => rnd (fsub o v)

theorem gain_lift (d : Dir) {o v : ℚ} (ho : |o| ≤ 2 ^ 300) (hv : |v| ≤ 2 ^ 300) :
    XTrade.gain d (.fin o) (.fin v) = .fin (gainOf d o v) ∧ |gainOf d o v| ≤ 2 ^ 304 := by
  have h1 := abs_sub v o
  have h2 := abs_sub o v
  cases d
  · refine ⟨?_, ?_⟩
    · unfold XTrade.gain gainOf
      simp only
      rw [XF.sub_fin (by norm_num at *; linarith)]
      rfl
    · have := abs_rnd_le (abs_fl_le (h1.trans (add_le_add hv ho))) (by norm_num)
      unfold gainOf fsub
      norm_num at *
      linarith
  · refine ⟨?_, ?_⟩
    · unfold XTrade.gain gainOf
      simp only
      rw [XF.sub_fin (by norm_num at *; linarith)]
      rfl
    · have := abs_rnd_le (abs_fl_le (h2.trans (add_le_add ho hv))) (by norm_num)
      unfold gainOf fsub
      norm_num at *
      linarith

theorem abs_mul_qty {g : ℚ} {n : ℤ} (hg : |g| ≤ 2 ^ 304) (hn : |n| ≤ 2 ^ 53) : |g * n| ≤ 2 ^ 357 := by
  have hn' : |(n : ℚ)| ≤ 2 ^ 53 := by exact_mod_cast hn
  rw [abs_mul]
  calc |g| * |(n : ℚ)| ≤ 2 ^ 304 * 2 ^ 53 := mul_le_mul hg hn' (abs_nonneg _) (by norm_num)
    _ = 2 ^ 357 := by norm_num

theorem ofInt_small {n : ℤ} (hn : |n| ≤ 2 ^ 53) : XF.ofInt n = .ok (.fin n) := by
  have hn' : |(n : ℚ)| ≤ 2 ^ 53 := by exact_mod_cast hn
  rw [XF.ofInt_fin (by norm_num at *; linarith), fl_int hn]

theorem closeResult_lift (d : Dir) {o : ℚ} {c : TradeClose} (ho : |o| ≤ 2 ^ 300) (hv : |c.closeValue| ≤ 2 ^ 300)
    (hq : |c.qty| ≤ 2 ^ 53) :
    XTrade.closeResult d (.fin o) ⟨.fin c.closeValue, c.qty⟩ = .ok (.fin (closeResult d o c)) ∧
      |closeResult d o c| ≤ 2 ^ 360 := by
  obtain ⟨e, hg⟩ := gain_lift d ho hv
  have hm := abs_mul_qty hg hq
  have hc : closeResult d o c = rnd (fmul (gainOf d o c.closeValue) c.qty) := by
    unfold closeResult closeResultAvg gainOf; cases d <;> rfl
  constructor
  · unfold XTrade.closeResult
    simp only [ofInt_small hq, e, bind, Except.bind]
    rw [XF.mul_fin (by norm_num at *; linarith), hc]
    rfl
  · rw [hc]
    have := abs_rnd_le (abs_fl_le hm) (by norm_num)
    unfold fmul
    norm_num at *
    linarith

theorem foldl_lift (hA : Accurate) : ∀ (l : List ℚ) (a : ℚ) (j : ℕ), (∀ x ∈ l, |x| ≤ 2 ^ 360) → |a| ≤ j * 2 ^ 361 →
    j + l.length ≤ 2 ^ 50 →
    (l.map XF.fin).foldl XF.add (.fin a) = .fin (l.foldl fadd a) ∧ |l.foldl fadd a| ≤ (j + l.length : ℕ) * 2 ^ 361
  | [], a, j, _, ha, _ => ⟨rfl, by simpa using ha⟩
  | x :: l, a, j, hl, ha, hj => by
    rw [List.length_cons] at hj
    have hx := hl x (by simp)
    have hs := abs_add_le a x
    have hj' : (j : ℚ) + 1 ≤ 2 ^ 50 := by
      have : j + 1 ≤ 2 ^ 50 := by omega
      exact_mod_cast this
    have hb : |a + x| ≤ j * 2 ^ 361 + 2 ^ 360 := by linarith
    have hf := hA (a + x)
    have h2 := abs_add_le (fl (a + x) - (a + x)) (a + x)
    rw [sub_add_cancel] at h2
    have hn : |fadd a x| ≤ ((j + 1 : ℕ) : ℚ) * 2 ^ 361 := by
      unfold fadd
      push_cast
      norm_num at *
      linarith
    have hadd : XF.add (.fin a) (.fin x) = .fin (fadd a x) := by
      apply XF.add_fin
      norm_num at *
      linarith
    obtain ⟨i1, i2⟩ := foldl_lift hA l (fadd a x) (j + 1) (fun y hy => hl y (by simp [hy])) hn (by omega)
    rw [List.map_cons, List.foldl_cons, List.foldl_cons, hadd, List.length_cons]
    refine ⟨i1, ?_⟩
    have e : j + 1 + l.length = j + (l.length + 1) := by omega
    rw [← e]
    exact i2

theorem mapM_ok {α β : Type} {f : α → Except PyErr β} {g : α → β} : ∀ {l : List α}, (∀ a ∈ l, f a = .ok (g a)) →
    l.mapM f = .ok (l.map g)
  | [], _ => rfl
  | a :: l, h => by
    rw [List.mapM_cons, h a (by simp), mapM_ok (l := l) (fun x hx => h x (by simp [hx]))]
    rfl

theorem result_lift (hA : Accurate) {M : ℤ} {k : ℕ} {t : Trade} (h : Tame M k t) (hk : k ≤ 2 ^ 50)
    (hM : (k + 1) * M ≤ 2 ^ 53) : t.lift.result = .ok (.fin t.result) := by
  have hu : |t.openedQty| ≤ 2 ^ 53 := h.units.trans hM
  have hop : t.lift.openedResult = .ok (.fin t.openedResult) ∧ |t.openedResult| ≤ 2 ^ 358 := by
    unfold XTrade.openedResult XTrade.openedResultAvg
    rw [lift_openedQty, lift_closed, ofInt_small hu]
    by_cases hc : t.closed = true
    · have e : t.openedResult = 0 := by
        unfold Trade.openedResult Trade.openedResultAvg fmul
        rw [if_pos hc, zero_mul, fl_zero]
      rw [if_pos hc, e]
      simp only [bind, Except.bind, Except.ok.injEq]
      rw [XF.mul_fin (by norm_num)]
      exact ⟨by unfold fmul; rw [zero_mul, fl_zero], by norm_num⟩
    · obtain ⟨e, hg⟩ := gain_lift t.dir h.entry h.price
      have hm := abs_mul_qty hg hu
      have e2 : t.openedResult = fmul (gainOf t.dir t.openValue t.curClose) t.openedQty := by
        unfold Trade.openedResult Trade.openedResultAvg gainOf
        rw [if_neg hc]; cases t.dir <;> rfl
      rw [if_neg hc, e2]
      simp only [bind, Except.bind, Except.ok.injEq]
      rw [show t.lift.dir = t.dir from rfl, show t.lift.openValue = .fin t.openValue from rfl,
        show t.lift.curClose = .fin t.curClose from rfl, e, XF.mul_fin (by norm_num at *; linarith)]
      refine ⟨rfl, ?_⟩
      have := abs_fl_le hm
      unfold fmul
      norm_num at *
      linarith
  have hcl : t.lift.closedResult = .ok (.fin t.closedResult) ∧ |t.closedResult| ≤ 2 ^ 411 := by
    have hF := foldl_lift hA (t.closes.map (closeResult t.dir t.openValue)) 0 0
      (by
        intro x hx
        obtain ⟨c, hc, rfl⟩ := List.mem_map.mp hx
        exact (closeResult_lift t.dir h.entry (h.closes c hc).1 (h.closes c hc).2).2)
      (by simp)
      (by rw [List.length_map]; have := h.count; omega)
    rw [List.length_map] at hF
    constructor
    · unfold XTrade.closedResult Trade.closedResult
      have hm : t.lift.closes.mapM (XTrade.closeResult t.lift.dir t.lift.openValue) =
          .ok ((t.closes.map (closeResult t.dir t.openValue)).map XF.fin) := by
        show (t.closes.map _).mapM _ = _
        rw [List.mapM_map, mapM_ok (g := fun c => XF.fin (closeResult t.dir t.openValue c))]
        · rw [List.map_map]; rfl
        · intro c hc
          exact (closeResult_lift t.dir h.entry (h.closes c hc).1 (h.closes c hc).2).1
      rw [hm]
      simp only [bind, Except.bind, Except.ok.injEq]
      exact hF.1
    · have h1 : t.closes.length ≤ 2 ^ 50 := h.count.trans hk
      have h2 : (t.closes.length : ℚ) ≤ 2 ^ 50 := by exact_mod_cast h1
      have h3 := hF.2
      rw [zero_add] at h3
      refine h3.trans ?_
      calc (t.closes.length : ℚ) * 2 ^ 361 ≤ 2 ^ 50 * 2 ^ 361 := mul_le_mul_of_nonneg_right h2 (by norm_num)
        _ = 2 ^ 411 := by norm_num
  unfold XTrade.result
  rw [hop.1, hcl.1]
  simp only [bind, Except.bind, Except.ok.injEq]
  have := abs_add_le t.openedResult t.closedResult
  have h1 := hop.2
  have h2 := hcl.2
  exact XF.add_fin (by norm_num at *; linarith)

theorem minmax_lift (hA : Accurate) {M : ℤ} {k : ℕ} {t : Trade} (h : Tame M k t) (hk : k ≤ 2 ^ 50)
    (hM : (k + 1) * M ≤ 2 ^ 53) : t.lift.updateMinMax = .ok t.updateMinMax.lift := by
  unfold XTrade.updateMinMax
  rw [result_lift hA h hk hM]
  simp only [bind, Except.bind, Except.ok.injEq]
  have e : ∀ x : ℚ, ({ t with maxRes := x } : Trade).result = t.result := fun _ => rfl
  unfold Trade.updateMinMax
  simp only [XF.lt, Trade.lift, decide_eq_true_eq]
  by_cases h1 : t.maxRes < t.result <;> by_cases h2 : t.result < t.minRes <;> simp [h1, h2, e]

theorem update_lift (hA : Accurate) {M : ℤ} {k : ℕ} {t : Trade} (h : Tame M k t) (hk : k ≤ 2 ^ 50)
    (hM : (k + 1) * M ≤ 2 ^ 53) {v : ℚ} (hv : |v| ≤ 2 ^ 300) :
    t.lift.update (.fin v) = .ok (t.update v).lift ∧ Tame M k (t.update v) := by
  unfold XTrade.update Trade.update
  rw [lift_closed]
  by_cases hc : t.closed = true
  · rw [if_pos hc, if_pos hc]
    exact ⟨rfl, h⟩
  · rw [if_neg hc, if_neg hc]
    have hT : Tame M k { t with curClose := v } := ⟨h.entry, hv, h.closes, h.count, h.units⟩
    refine ⟨minmax_lift hA hT hk hM, ?_⟩
    unfold Trade.updateMinMax
    simp only
    split_ifs <;> exact ⟨h.entry, hv, h.closes, h.count, h.units⟩

theorem closeQty_lift (t : Trade) (q : Option ℤ) : t.lift.closeQty q = t.closeQty q := by
  unfold XTrade.closeQty Trade.closeQty
  rw [lift_openedQty]
  rfl

theorem close_lift {M : ℤ} {k : ℕ} {t : Trade} (h : Tame M k t) (hM0 : 0 ≤ M) (hM : (k + 2) * M ≤ 2 ^ 53) {v : ℚ}
    (hv : |v| ≤ 2 ^ 300) (dt : DT) {q : Option ℤ} (hq : ∀ n, q = some n → |n| ≤ M) :
    t.lift.close (.fin v) q = (t.close v dt q).lift ∧ Tame M (k + 1) (t.close v dt q) := by
  have hQ : |t.closeQty q| ≤ (k + 2) * M ∧ |t.openedQty - t.closeQty q| ≤ (k + 2) * M := by
    have hu := h.units
    have h0 : (k + 2) * M = (k + 1) * M + M := by ring
    rw [h0]
    have hkM : 0 ≤ (k + 1) * M := by positivity
    unfold Trade.closeQty
    rcases q with _ | n
    · simp only [lt_irrefl, if_false, sub_self, abs_zero]
      exact ⟨by linarith, by linarith⟩
    · have hn := hq n rfl
      simp only
      rw [abs_le] at hu hn
      split_ifs <;> (try simp only [sub_self, abs_zero]) <;> (constructor <;> first | (rw [abs_le]; constructor <;> linarith [hu.1, hu.2, hn.1, hn.2]) | linarith)
  constructor
  · unfold XTrade.close Trade.close
    rw [closeQty_lift]
    unfold Trade.lift
    simp
  · refine ⟨h.entry, h.price, ?_, ?_, ?_⟩
    · intro c hc
      unfold Trade.close at hc
      rw [List.mem_append, List.mem_singleton] at hc
      rcases hc with hc | rfl
      · exact h.closes c hc
      · exact ⟨hv, hQ.1.trans hM⟩
    · unfold Trade.close
      rw [List.length_append]
      have := h.count
      simpa using this
    · have e : (t.close v dt q).openedQty = t.openedQty - t.closeQty q := by
        unfold Trade.openedQty Trade.closedQty Trade.close
        simp only [List.map_append, List.sum_append, List.map_cons, List.map_nil, List.sum_cons, List.sum_nil]
        ring
      rw [e]
      push_cast
      have h0 : ((k : ℤ) + 1 + 1) * M = (k + 2) * M := by ring
      rw [h0]
      exact hQ.2

theorem Tame.mono {M : ℤ} (hM0 : 0 ≤ M) {k : ℕ} {t : Trade} (h : Tame M k t) : Tame M (k + 1) t := by
  refine ⟨h.entry, h.price, h.closes, by have := h.count; omega, h.units.trans ?_⟩
  push_cast
  nlinarith

theorem exit_lift (t : Trade) (q : Tick) : (match t.lift.dir with
    | .buy => q.lift.bid
    | .sell => q.lift.ask) = XF.fin (Spec.exitQuote t.dir q) := by
  show (match t.dir with
    | .buy => q.lift.bid
    | .sell => q.lift.ask) = _
  cases t.dir <;> rfl

theorem run_lift (hA : Accurate) {M : ℤ} {k : ℕ} {t : Trade} (h : Tame M k t) (hk : k ≤ 2 ^ 50) (hM0 : 0 ≤ M)
    (hM : (k + 2) * M ≤ 2 ^ 53) {o : Spec.TradeOp} (ho : o.Within M) :
    o.lift.run t.lift = .ok (o.run t).lift ∧ Tame M (k + 1) (o.run t) := by
  have hM1 : (k + 1) * M ≤ 2 ^ 53 := by nlinarith
  cases o with
  | update v =>
    obtain ⟨a, b⟩ := update_lift hA h hk hM1 ho
    exact ⟨a, b.mono hM0⟩
  | tick q =>
    have hv : |Spec.exitQuote t.dir q| ≤ 2 ^ 300 := by
      cases t.dir
      · exact ho.1
      · exact ho.2
    obtain ⟨a, b⟩ := update_lift hA h hk hM1 hv
    refine ⟨?_, b.mono hM0⟩
    show t.lift.updateFromTick q.lift = .ok (t.updateFromTick q).lift
    refine Eq.trans ?_ a
    exact congrArg t.lift.update (exit_lift t q)
  | close v dt q =>
    obtain ⟨a, b⟩ := close_lift h hM0 hM ho.1 dt ho.2
    exact ⟨congrArg Except.ok a, b⟩
  | closeTick q n =>
    have hv : |Spec.exitQuote t.dir q| ≤ 2 ^ 300 := by
      cases t.dir
      · exact ho.1
      · exact ho.2.1
    obtain ⟨a, b⟩ := update_lift hA h hk hM1 hv
    have hu : t.lift.updateFromTick q.lift = .ok (t.updateFromTick q).lift := by
      refine Eq.trans ?_ a
      exact congrArg t.lift.update (exit_lift t q)
    have hb : Tame M k (t.updateFromTick q) := b
    obtain ⟨c, d⟩ := close_lift hb hM0 hM hb.price q.dt ho.2.2
    refine ⟨?_, d⟩
    show t.lift.closeFromTick q.lift n = _
    unfold XTrade.closeFromTick
    rw [hu]
    simp only [bind, Except.bind, Except.ok.injEq]
    exact c

theorem after_lift (hA : Accurate) {M : ℤ} (hM0 : 0 ≤ M) : ∀ (ops : List Spec.TradeOp) {k : ℕ} {t : Trade}, Tame M k t →
    k + ops.length ≤ 2 ^ 50 → (k + ops.length + 1 : ℕ) * M ≤ 2 ^ 53 → (∀ o ∈ ops, o.Within M) →
    t.lift.after (ops.map Spec.TradeOp.lift) = .ok (t.after ops).lift ∧ Tame M (k + ops.length) (t.after ops)
  | [], k, t, h, _, _, _ => ⟨rfl, h⟩
  | o :: os, k, t, h, hk, hM, ho => by
    rw [List.length_cons] at hk hM
    have hM2 : ((k : ℤ) + 2) * M ≤ 2 ^ 53 := by
      refine le_trans ?_ hM
      apply mul_le_mul_of_nonneg_right _ hM0
      push_cast
      linarith [Int.natCast_nonneg os.length]
    obtain ⟨a, b⟩ := run_lift hA h (by omega) hM0 hM2 (ho o (by simp))
    have e : k + 1 + os.length = k + (os.length + 1) := by omega
    obtain ⟨c, d⟩ := after_lift hA hM0 os b (by omega) (by rw [e]; exact hM) (fun x hx => ho x (by simp [hx]))
    rw [e] at d
    refine ⟨?_, d⟩
    show (o.lift.run t.lift >>= fun t => t.after (os.map Spec.TradeOp.lift)) = _
    rw [a]
    exact c

/-- C75, ordinary numbers: with prices of at most 2^300 and quantities that stay within 53 bits, a trade of the rest of the
model and the trade with all floats go through the same numbers, without NaN, overflow or exception. -/
theorem C75_finite_trade (hA : Accurate) (d : Dir) (Q M : ℤ) (o : ℚ) (c : Option ℚ) (dt : DT) (e : ℕ) (s : Option ℕ)
    (ops : List Spec.TradeOp) (ho : |o| ≤ 2 ^ 300) (hc : ∀ x, c = some x → |x| ≤ 2 ^ 300) (hQ : |Q| ≤ M)
    (hn : ops.length ≤ 2 ^ 50) (hM : (ops.length + 1 : ℕ) * M ≤ 2 ^ 53) (hops : ∀ x ∈ ops, x.Within M) :
    (do let t ← XTrade.new d Q (.fin o) (c.map XF.fin); t.after (ops.map Spec.TradeOp.lift)) =
      .ok ((Trade.new d Q o dt e c s).after ops).lift ∧
    ((Trade.new d Q o dt e c s).after ops).lift.result = .ok (.fin ((Trade.new d Q o dt e c s).after ops).result) := by
  have hM0 : 0 ≤ M := (abs_nonneg Q).trans hQ
  have hcur : |(Trade.new d Q o dt e c s).curClose| ≤ 2 ^ 300 := by
    unfold Trade.new
    rcases c with _ | x
    · exact ho
    · simp only
      split_ifs
      · exact ho
      · exact hc x rfl
  have hT : Tame M 0 (Trade.new d Q o dt e c s) :=
    ⟨ho, hcur, by simp [Trade.new], le_rfl, by
      unfold Trade.openedQty Trade.closedQty
      show |Q - 0| ≤ _
      simpa using hQ⟩
  have hM1 : ((0 : ℕ) + 1 : ℤ) * M ≤ 2 ^ 53 := by
    push_cast at hM ⊢
    nlinarith [Int.natCast_nonneg ops.length]
  obtain ⟨a, b⟩ := after_lift hA hM0 ops hT (by omega) (by simpa using hM) hops
  have hnew : XTrade.new d Q (.fin o) (c.map XF.fin) = .ok (Trade.new d Q o dt e c s).lift := by
    have hr := result_lift hA hT (by norm_num) hM1
    have key : ∀ x : XTrade, x.dir = d → x.openQty = Q → x.closes = [] → x.openValue = .fin o →
        x.curClose = .fin (Trade.new d Q o dt e c s).curClose → x.result = .ok (.fin (Trade.new d Q o dt e c s).result) := by
      intro x h1 h2 h3 h4 h5
      rw [← hr]
      obtain ⟨x1, x2, x3, x4, x5, x6, x7⟩ := x
      simp only at h1 h2 h3 h4 h5
      subst h1 h2 h3 h4 h5
      rfl
    have hcl : (match c.map XF.fin with
        | none => XF.fin o
        | some x => if x.truthy then x else XF.fin o) = .fin (Trade.new d Q o dt e c s).curClose := by
      unfold Trade.new
      rcases c with _ | x
      · rfl
      · simp only [Option.map_some, XF.truthy]
        by_cases hx : x = 0 <;> simp [hx]
    have hx : XTrade.new d Q (.fin o) (c.map XF.fin) =
        ((⟨d, Q, [], .fin o, .fin (Trade.new d Q o dt e c s).curClose, .fin 0, .fin 0⟩ : XTrade).result >>= fun r =>
          .ok ⟨d, Q, [], .fin o, .fin (Trade.new d Q o dt e c s).curClose, r, r⟩) := by
      rw [← hcl]; rfl
    rw [hx, key _ rfl rfl rfl rfl rfl]
    rfl
  rw [hnew]
  refine ⟨a, ?_⟩
  apply result_lift hA b (by omega)
  push_cast at hM ⊢
  simpa using hM

end

/-- In binary64 a finite float of 2^53 or more is an integer, and `round(x, 2)` returns it unchanged. -/
theorem fl64_big {q : ℚ} (hq : fl64 q = q) (h : 2 ^ 53 ≤ |q|) : ∃ n : ℤ, q = n := by
  have hu : 0 ≤ ulpExp q := by
    unfold ulpExp
    have h0 : q ≠ 0 := by
      rintro rfl
      norm_num at h
    rw [if_neg h0]
    have : (53 : ℤ) ≤ Int.log 2 |q| := by
      rw [← Int.zpow_le_iff_le_log (by norm_num) (abs_pos.mpr h0)]
      exact_mod_cast h
    exact le_trans (by omega) (le_max_left _ _)
  obtain ⟨k, hk⟩ := Int.eq_ofNat_of_zero_le hu
  refine ⟨rhe (q / 2 ^ ulpExp q) * 2 ^ k, ?_⟩
  have e : fl64 q = (rhe (q / 2 ^ ulpExp q) : ℚ) * 2 ^ ulpExp q := rfl
  rw [hq] at e
  have e2 : (2 : ℚ) ^ ulpExp q = 2 ^ k := by rw [hk]; exact zpow_natCast _ _
  push_cast
  rw [← e2]
  exact e

/-- `round(x, 2)` of a finite binary64 float is a finite float: `XF.round2` hides no OverflowError. -/
theorem round2_in_range (q : ℚ) (hq : fl64 q = q) (h : |q| < 2 ^ 1024) : |@rnd Arith.binary64 q| < 2 ^ 1024 := by
  letI := Arith.binary64
  by_cases hb : (2 : ℚ) ^ 53 ≤ |q|
  · obtain ⟨n, hn⟩ := fl64_big hq hb
    have : rnd q = q := by
      unfold rnd
      have hc : cent q = q := by rw [hn]; exact (isCent_int n).cent
      rw [hc]; exact hq
    rw [this]; exact h
  · have := abs_rnd_le (x := q) (M := 2 ^ 53) (by linarith) (by norm_num)
    norm_num at *
    linarith

/-- The datetime of the examples. -/
def Spec.noon : DT := ⟨midnight 2020 1 1, midnight 2020 1 1, 0⟩

/-- C75 is false as stated, in binary64.  A tick with a NaN quote is accepted and is not ordered; two finite quotes can have an
infinite value, above the ask; ordered infinite quotes can have the value NaN; and the high of a frame that starts with NaN
is not at least the value of a later tick. -/
theorem C75_false :
    letI := Arith.binary64
    (∃ t : XTick, XTick.new (.aware Spec.noon) (.float (.fin 1)) (.float .nan) = .ok t ∧ ¬ Spec.AtMost t.bid t.ask) ∧
    (∃ (a b : ℚ) (t : XTick), XTick.new (.aware Spec.noon) (.float (.fin a)) (.float (.fin b)) = .ok t ∧
      t.value = .inf false ∧ ¬ Spec.AtMost t.value t.ask) ∧
    (∃ t : XTick, XTick.new (.aware Spec.noon) (.float (.inf true)) (.float (.inf false)) = .ok t ∧
      Spec.AtMost t.bid t.ask ∧ t.value = .nan) ∧
    (∃ t u : XTick, XTick.new (.aware Spec.noon) (.float .nan) (.float (.fin 2)) = .ok t ∧
      XTick.new (.aware Spec.noon) (.float (.fin 5)) (.float (.fin 6)) = .ok u ∧ u.value ≠ .nan ∧
      ¬ Spec.AtMost u.value (XFrame.of t [u]).high.value) := by
  letI := Arith.binary64
  refine ⟨⟨⟨Spec.noon, .fin 1, .nan⟩, by decide +kernel, ?_⟩,
    ⟨-2 ^ 1023, 2 ^ 1023, ⟨Spec.noon, .fin (-2 ^ 1023), .fin (2 ^ 1023)⟩, by decide +kernel, by decide +kernel, ?_⟩,
    ⟨⟨Spec.noon, .inf true, .inf false⟩, by decide +kernel, ?_, by decide +kernel⟩,
    ⟨⟨Spec.noon, .nan, .fin 2⟩, ⟨Spec.noon, .fin 5, .fin 6⟩, by decide +kernel, by decide +kernel, by decide +kernel, ?_⟩⟩
  · rw [atMost_iff]; simp
  · rw [atMost_iff, ← XF.lt_iff]
    rintro ⟨_, _, h⟩
    exact h (by decide +kernel)
  · rw [atMost_iff, ← XF.lt_iff]
    decide +kernel
  · rw [atMost_iff]
    rintro ⟨_, h, _⟩
    exact h (by decide +kernel)

/-- Case for `C75_accepts_iff`, `C75_ordered_partial`: a tick with an infinite ask, and a crossed pair that is refused. -/
example : letI := Arith.binary64
    XTick.new (.aware Spec.noon) (.int 3) (.float (.inf false)) = .ok ⟨Spec.noon, .fin 3, .inf false⟩ ∧
    XTick.new (.aware Spec.noon) (.float (.inf false)) (.int 3) = .error .tick ∧
    XTick.new (.aware Spec.noon) (.int (2 ^ 1024)) (.float .nan) = .error .overflow := by
  decide +kernel

/-- Case for `C75_nan_accepted`: NaN with NaN. -/
example : letI := Arith.binary64
    XTick.new (.aware Spec.noon) (.float .nan) (.float .nan) = .ok ⟨Spec.noon, .nan, .nan⟩ :=
  letI := Arith.binary64
  (C75_nan_accepted Spec.noon .nan).1

/-- Case for `C75_finite_constructor`, `C75_finite_value`: 99.9 / 100.2. -/
example : letI := Arith.binary64
    (⟨Spec.noon, .fin (fl (999 / 10)), .fin (fl (1002 / 10))⟩ : XTick).value = .fin (fl (10005 / 100)) ∧
    XTick.new (.aware Spec.noon) (PyVal.int 3).lift (PyVal.int 2).lift = .error .tick := by
  decide +kernel

/-- Case for the frame theorems: ticks 5, NaN, 3, 9 leave 9 and 3; NaN first leaves NaN. -/
example : letI := Arith.binary64
    let k (x : XF) : XTick := ⟨Spec.noon, x, x⟩
    ((XFrame.of (k (.fin 5)) [k .nan, k (.fin 3), k (.fin 9)]).high = k (.fin 9) ∧
      (XFrame.of (k (.fin 5)) [k .nan, k (.fin 3), k (.fin 9)]).low = k (.fin 3)) ∧
    ((XFrame.of (k .nan) [k (.fin 3), k (.fin 9)]).high = k .nan ∧
      (XFrame.of (k .nan) [k (.fin 3), k (.fin 9)]).low = k .nan) := by
  decide +kernel

/-- `C75_frame_counts`: NaN counts as a tick. -/
example : letI := Arith.binary64
    let k (x : XF) : XTick := ⟨Spec.noon, x, x⟩
    (XFrame.of (k (.fin 5)) [k (.fin 3), k .nan]).nbTicks = 3 ∧ (XFrame.of (k (.fin 5)) [k (.fin 3), k .nan]).last = k .nan := by
  decide +kernel

/-- Case for `C75_nan_open`: bought at NaN, quoted at 5, half closed at 6: the result is NaN. -/
example : letI := Arith.binary64
    ((XTrade.new .buy 2 .nan none).bind fun t => (t.after [.update (.fin 5), .close (.fin 6) (some 1)]).bind
      XTrade.result) = .ok .nan := by
  decide +kernel

/-- Case for `C75_nan_extremes_stick`: bought at 10 while the bid is NaN; quoted at 12 the result is 4 but the extremes
are still NaN. -/
example : letI := Arith.binary64
    ((XTrade.openFromTick ⟨Spec.noon, .nan, .fin 10⟩ .buy 2).bind fun t => t.after [.update (.fin 12)]) =
      .ok ⟨.buy, 2, [], .fin 10, .fin 12, .nan, .nan⟩ := by
  decide +kernel

/-- Case for `C75_nan_update_forgotten`: 10, NaN, 12. -/
example : letI := Arith.binary64
    ((XTrade.new .buy 2 (.fin 10) none).bind fun t => t.after [.update .nan, .update (.fin 12)]) =
      .ok ⟨.buy, 2, [], .fin 10, .fin 12, .fin 4, .fin 0⟩ := by
  decide +kernel

/-- Case for `C75_finite_trade`: three calls on a trade of 10 units. -/
example : letI := Arith.binary64
    ((Trade.new .sell 10 100 Spec.noon 0 none none).after
      [.update 99, .close 98 Spec.noon (some 4), .update 101]).lift =
      ⟨.sell, 10, [⟨.fin 98, 4⟩], .fin 100, .fin 101, .fin 10, .fin 0⟩ ∧
    ∀ x ∈ [Spec.TradeOp.update 99, .close 98 Spec.noon (some 4), .update 101], x.Within 10 := by
  letI := Arith.binary64
  refine ⟨by decide +kernel, ?_⟩
  intro x hx
  simp only [List.mem_cons, List.not_mem_nil, or_false] at hx
  rcases hx with rfl | rfl | rfl
  · unfold Spec.TradeOp.Within; norm_num
  · refine ⟨by norm_num, ?_⟩
    intro n hn
    cases hn
    norm_num
  · unfold Spec.TradeOp.Within; norm_num

/-! ## Openings and infinite quotes -/

section
variable [Arith]

/-- Spec: the quotes a trade enters and leaves at. -/
def Spec.xEntry (d : Dir) (k : XTick) : XF := if d = .buy then k.ask else k.bid
def Spec.xExit (d : Dir) (k : XTick) : XF := if d = .buy then k.bid else k.ask

theorem xnew_ok {d : Dir} {n : ℤ} {o x : XF} {t : XTrade} (h : XTrade.new d n o (some x) = .ok t) :
    t.dir = d ∧ t.openQty = n ∧ t.openValue = o ∧ t.closes = [] ∧ t.curClose = (if x = .fin 0 then o else x) ∧ t.result = .ok t.maxRes ∧ t.minRes = t.maxRes := by
  obtain ⟨r, hr, h⟩ := except_bind h
  simp only [Except.ok.injEq] at h
  subst h
  refine ⟨rfl, rfl, rfl, rfl, ?_, hr, rfl⟩
  rcases x with _ | s | q
  · rfl
  · rfl
  · by_cases hq : q = 0 <;> simp [XF.truthy, hq]

/-- C75, trades: a trade opened from a tick keeps the entry quote of the tick as its open value whatever is done with it. -/
theorem C75_entry_quote (k : XTick) (d : Dir) (n : ℤ) (t t' : XTrade) (ops : List Spec.XOp) (h : XTrade.openFromTick k d n = .ok t)
    (h' : t.after ops = .ok t') : t'.openValue = Spec.xEntry d k ∧ t'.dir = d ∧ t'.openQty = n := by
  obtain ⟨a, b, c⟩ := xafter_frame h'
  cases d <;> obtain ⟨e1, e2, e3, -⟩ := xnew_ok h <;> exact ⟨a.trans e3, b.trans e1, c.trans e2⟩

/-- C75, trades: a trade opened while its exit quote is NaN never has extremes, whatever its results are later. -/
theorem C75_nan_exit_at_opening (k : XTick) (d : Dir) (n : ℤ) (t t' : XTrade) (ops : List Spec.XOp) (hn : n ≠ 0) (hk : Spec.xExit d k = .nan)
    (h : XTrade.openFromTick k d n = .ok t) (h' : t.after ops = .ok t') : t'.maxRes = .nan ∧ t'.minRes = .nan := by
  have key : ∀ (o : XF), XTrade.new d n o (some .nan) = .ok t → t'.maxRes = .nan ∧ t'.minRes = .nan := by
    intro o ho
    obtain ⟨e1, e2, e3, e4, e5, e6, e7⟩ := xnew_ok ho
    obtain ⟨s1, s2⟩ := C75_nan_extremes_stick t t' ops h'
    rw [if_neg (by simp)] at e5
    have hr : t.maxRes = .nan := by
      obtain ⟨a, ha, hr⟩ := except_bind e6
      obtain ⟨b, hb, hr⟩ := except_bind hr
      obtain ⟨m, hm, ha⟩ := except_bind ha
      have : t.openedResultAvg = .nan := by
        unfold XTrade.openedResultAvg
        rw [if_neg (by unfold XTrade.closed XTrade.openedQty XTrade.closedQty; rw [e4, e2]; simpa using hn), e5, e1]
        cases d
        · rfl
        · unfold XTrade.gain XF.sub
          simp only [XF.neg, XF.add_nan_right]; rfl
      rw [this] at ha
      simp only [Except.ok.injEq, XF.mul_nan_left] at ha hr
      subst ha
      exact hr.symm
    exact ⟨s1 hr, s2 (e7.trans hr)⟩
  cases d
  · have : k.bid = .nan := hk
    unfold XTrade.openFromTick at h
    dsimp only at h; rw [this] at h
    exact key _ h
  · have : k.ask = .nan := hk
    unfold XTrade.openFromTick at h
    dsimp only at h; rw [this] at h
    exact key _ h

theorem xmm_eq {t t' : XTrade} (h : t.updateMinMax = .ok t') :
    ∃ r, t.result = .ok r ∧ t' = { t with maxRes := (if t.maxRes.lt r then r else t.maxRes), minRes := (if r.lt t.minRes then r else t.minRes) } := by
  obtain ⟨r, hr, h⟩ := except_bind h
  refine ⟨r, hr, ?_⟩
  simp only [Except.ok.injEq] at h
  subst h
  by_cases h1 : t.maxRes.lt r = true <;> by_cases h2 : r.lt t.minRes = true <;> simp [h1, h2]

/-- Spec: an infinite quote is a gain (`false`) for a buyer when positive, for a seller when negative. -/
def Spec.loses (d : Dir) (neg : Bool) : Bool := if d = .buy then neg else !neg

/-- C75, trades: an open trade with a finite entry and finite closes has an infinite result while its quote is infinite, a gain or a loss according to
the direction, and the extreme on that side becomes infinite, the other one is kept. -/
theorem C75_infinite_quote (t t' : XTrade) (o c a b : ℚ) (s : Bool) (ho : t.openValue = .fin o) (hc : t.closedResult = .ok (.fin c)) (hq : 0 < t.openedQty)
    (ha : t.maxRes = .fin a) (hb : t.minRes = .fin b) (h : t.update (.inf s) = .ok t') :
    t'.result = .ok (.inf (Spec.loses t.dir s)) ∧ t'.maxRes = (if Spec.loses t.dir s then .fin a else .inf false) ∧
      t'.minRes = (if Spec.loses t.dir s then .inf true else .fin b) := by
  unfold XTrade.update at h
  have hcl : t.closed = false := by unfold XTrade.closed; simp; omega
  rw [hcl, if_neg (by simp)] at h
  obtain ⟨r, hr, rfl⟩ := xmm_eq h
  have hr' : r = .inf (Spec.loses t.dir s) := by
    obtain ⟨a, ha, hr⟩ := except_bind hr
    obtain ⟨b, hb, hr⟩ := except_bind hr
    obtain ⟨m, hm, ha⟩ := except_bind ha
    have hb' : b = .fin c := by
      have : ({ t with curClose := XF.inf s } : XTrade).closedResult = t.closedResult := rfl
      rw [this, hc] at hb; injection hb with hb; exact hb.symm
    have hav : ({ t with curClose := XF.inf s } : XTrade).openedResultAvg = .inf (Spec.loses t.dir s) := by
      unfold XTrade.openedResultAvg
      rw [if_neg (by show ¬ t.closed = true; simp [hcl])]
      show XTrade.gain t.dir t.openValue (.inf s) = _
      rw [ho]
      cases t.dir <;> rfl
    have hmq : ∃ y, m = .fin y ∧ 0 < y := by
      change XF.ofInt t.openedQty = _ at hm
      unfold XF.ofInt at hm
      split_ifs at hm
      injection hm with hm
      refine ⟨_, hm.symm, ?_⟩
      have h1 : (1 : ℚ) ≤ (t.openedQty : ℚ) := by exact_mod_cast hq
      have h2 := fl_mono h1
      have h3 : fl (1 : ℚ) = 1 := by simpa using Arith.int_exact 1 (by norm_num)
      linarith
    obtain ⟨y, rfl, hy⟩ := hmq
    rw [hav] at ha
    simp only [Except.ok.injEq] at ha hr
    subst ha hb'
    rw [← hr]
    unfold XF.mul
    simp only
    rw [if_neg (by linarith)]
    have : decide (y < 0) = false := by simp; linarith
    rw [this]
    simp [XF.add]
  refine ⟨?_, ?_, ?_⟩
  · rw [← hr', ← hr]; rfl
  · rw [hr']
    show (if t.maxRes.lt _ then _ else t.maxRes) = _
    rw [ha]
    rcases Spec.loses t.dir s with _ | _ <;> simp [XF.lt]
  · rw [hr']
    show (if XF.lt _ t.minRes then _ else t.minRes) = _
    rw [hb]
    rcases Spec.loses t.dir s with _ | _ <;> simp [XF.lt]

/-- C75: closing a closed trade once more closes the quantity 0, and 0 times an infinite gain is NaN: at an infinite price this spoils the
result of a trade that was over. -/
theorem C75_closed_again (t : XTrade) (o : ℚ) (s : Bool) (q : Option ℤ) (ho : t.openValue = .fin o) (hc : t.closed = true)
    (hq : ∀ n, q = some n → 0 ≤ n) (r : XF) (hr : (t.close (.inf s) q).result = .ok r) : r = .nan := by
  have h0 : t.openedQty = 0 := by unfold XTrade.closed at hc; simpa using hc
  have hz : t.closeQty q = 0 := by
    unfold XTrade.closeQty
    rw [h0]
    rcases q with _ | n
    · rfl
    · have := hq n rfl
      simp only
      split_ifs <;> omega
  obtain ⟨a, -, hr⟩ := except_bind hr
  obtain ⟨b, hb, hr⟩ := except_bind hr
  obtain ⟨l, hl, hb⟩ := except_bind hb
  simp only [Except.ok.injEq] at hr hb
  subst hr hb
  unfold XTrade.close at hl
  rw [hz] at hl
  simp only [List.mapM_append, List.mapM_cons, List.mapM_nil] at hl
  obtain ⟨l1, -, hl⟩ := except_bind hl
  obtain ⟨l2, h2, hl⟩ := except_bind hl
  obtain ⟨x, hx, h2⟩ := except_bind h2
  have e : x = .nan := by
    unfold XTrade.closeResult XF.ofInt at hx
    have hf : fl ((0 : ℤ) : ℚ) = 0 := by simpa using fl_zero
    rw [hf, if_pos (by norm_num), ho] at hx
    have hg : ∃ s', XTrade.gain t.dir (.fin o) (.inf s) = .inf s' := by
      cases t.dir
      · exact ⟨s, rfl⟩
      · exact ⟨!s, rfl⟩
    obtain ⟨s', hg⟩ := hg
    simp only [bind, Except.bind, hg, Except.ok.injEq] at hx
    rw [← hx]
    unfold XF.mul
    simp only [if_true]
    rfl
  subst e
  cases h2
  cases hl
  unfold XF.sum
  rw [List.foldl_append]
  have h3 : ∀ y : XF, y.add .nan = .nan := by intro y; cases y <;> rfl
  simp only [List.foldl_cons, List.foldl_nil, h3]

/-- Spec: the mid price when a quote is infinite: that of the side that is infinite if the bid is finite, NaN as soon as the bid is infinite. -/
def Spec.xMid (bid ask : XF) : XF :=
  match bid, ask with
  | .fin _, .inf s => .inf s
  | _, _ => .nan

/-- C75, ticks: of the ticks with an infinite quote, only those with a finite bid have a value other than NaN, namely the infinite ask. -/
theorem C75_infinite_tick (t : XTick) (h : t.bid = .inf true ∨ t.bid = .inf false ∨ t.ask = .inf true ∨ t.ask = .inf false) :
    t.value = Spec.xMid t.bid t.ask := by
  obtain ⟨d, b, a⟩ := t
  rcases b with _ | _ | _ <;> rcases a with _ | _ | _ <;> simp at h <;>
    first
    | rfl
    | (rename_i x y; rcases x <;> rcases y <;> rfl)

/-- C75, ticks: of the ticks that the constructor accepts with an infinite quote, the spread is infinite exactly if the quotes are neither NaN nor equal. -/
theorem C75_infinite_spread (d : RawDT) (bid ask : XVal) (t : XTick) (hn : XTick.new d bid ask = .ok t)
    (h : t.bid = .inf true ∨ t.bid = .inf false ∨ t.ask = .inf true ∨ t.ask = .inf false) :
    t.spread = if t.bid = .nan ∨ t.ask = .nan ∨ t.bid = t.ask then .nan else .inf false := by
  obtain ⟨dt, -, hn⟩ := except_bind hn
  obtain ⟨a, -, hn⟩ := except_bind hn
  obtain ⟨b, -, hn⟩ := except_bind hn
  split_ifs at hn with hlt
  injection hn with hn
  subst hn
  simp only at h ⊢
  rcases a with _ | x | x <;> rcases b with _ | y | y <;> (try rcases x with _ | _) <;> (try rcases y with _ | _) <;>
    simp_all [XF.lt, XTick.spread, XF.sub, XF.neg, XF.add, XF.round2]

end

/-- Cases for `C75_infinite_tick`, `C75_infinite_spread`: the ask infinite; the bid infinite; both. -/
example : letI := Arith.binary64
    XTick.new (.aware Spec.noon) (.int 5) (.float (.inf false)) = .ok ⟨Spec.noon, .fin 5, .inf false⟩ ∧
    (⟨Spec.noon, .fin 5, .inf false⟩ : XTick).value = .inf false ∧ (⟨Spec.noon, .inf true, .fin 5⟩ : XTick).value = .nan ∧
    (⟨Spec.noon, .inf true, .inf false⟩ : XTick).spread = .inf false ∧ (⟨Spec.noon, .inf true, .inf true⟩ : XTick).spread = .nan := by
  decide +kernel

/-- Case for `C75_closed_again`: bought at 10, sold at 12, and closed again at an infinite price. -/
example : letI := Arith.binary64
    ((XTrade.openFromTick ⟨Spec.noon, .fin 9, .fin 10⟩ .buy 2).bind fun t => (t.close (.fin 12) none).result) = .ok (.fin 4) ∧
    ((XTrade.openFromTick ⟨Spec.noon, .fin 9, .fin 10⟩ .buy 2).bind fun t =>
      ((t.close (.fin 12) none).close (.inf false) none).result) = .ok .nan := by
  decide +kernel

/-- Cases for `C75_entry_quote`, `C75_nan_exit_at_opening`: bought at 10 while the bid is NaN. -/
example : letI := Arith.binary64
    ((XTrade.openFromTick ⟨Spec.noon, .nan, .fin 10⟩ .buy 2).bind fun t => t.after [.update (.fin 12), .close (.fin 12) none]) =
      .ok ⟨.buy, 2, [⟨.fin 12, 2⟩], .fin 10, .fin 12, .nan, .nan⟩ := by
  decide +kernel

/-- Case for `C75_infinite_quote`: sold at 10, the ask becomes infinite. -/
example : letI := Arith.binary64
    ((XTrade.openFromTick ⟨Spec.noon, .fin 10, .fin 11⟩ .sell 2).bind fun t => t.update (.inf false)) =
      .ok ⟨.sell, 2, [], .fin 10, .inf false, .fin (-2), .inf true⟩ := by
  decide +kernel

end Estrade
