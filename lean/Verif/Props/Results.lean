import Verif.Props.Portfolio

/-!
# C36-C39, C56: trades and results of a strategy
-/

set_option linter.style.haveILetI false
set_option linter.unusedSectionVars false
set_option autoImplicit false

namespace Estrade

section
variable [Arith]

/-! ## C36 -/

/-- Spec: the conditions on epic and openness. -/
def Spec.selected (epics : Option (List ℕ)) (openOnly : Bool) (t : Trade) : Bool :=
  (match epics with
    | none => true
    | some es => decide (t.epic ∈ es)) && (!openOnly || decide (Spec.IsOpen t))

/-- Spec: not before `d`. -/
def Spec.notBefore (onlyAfter : Option DT) (t : Trade) : Bool := match onlyAfter with
  | none => true
  | some d => !t.dt.lt d

/-- C36 as stated, for the trades of a strategy in any state of a valid run. -/
def Spec.C36 : Prop :=
  ∀ (env : Env) (w : World), Spec.ValidRun env w → ∀ (s : ℕ) (st : Strategy), w.strategies[s]? = some st →
    ∀ epics openOnly onlyAfter, let own := st.trades.filterMap (fun i => w.trades[i]?)
      getTrades own epics openOnly onlyAfter =
        own.reverse.filter (fun t => Spec.selected epics openOnly t && Spec.notBefore onlyAfter t)

theorem closed_not (t : Trade) : (!t.closed) = decide (Spec.IsOpen t) := by
  have := t.closed_iff
  by_cases h : t.openedQty = 0
  · rw [this.mpr h]; simp [isOpen_iff, h]
  · have hc : t.closed = false := by rw [Bool.eq_false_iff]; exact fun hc => h (this.mp hc)
    rw [hc]; simp [isOpen_iff, h]

theorem getTrades_go (epics : Option (List ℕ)) (openOnly : Bool) (onlyAfter : Option DT) (l : List Trade) :
    getTrades.go epics openOnly onlyAfter l =
      (l.filter (Spec.selected epics openOnly)).takeWhile (Spec.notBefore onlyAfter) := by
  induction l with
  | nil => rfl
  | cons t rest ih =>
    rw [List.filter_cons]
    unfold getTrades.go
    rw [closed_not]
    change (if Spec.selected epics openOnly t = true then _ else _) = _
    by_cases h : Spec.selected epics openOnly t = true
    · rw [if_pos h, if_pos h, List.takeWhile_cons]
      cases onlyAfter with
      | none => simp only [Spec.notBefore, if_true]; rw [ih]
      | some d =>
        have hb : Spec.notBefore (some d) t = !t.dt.lt d := rfl
        rw [hb, ih]
        by_cases hlt : t.dt.lt d = true
        · simp [hlt]
        · simp [hlt]
    · rw [if_neg h, if_neg h, ih]

/-- C36, in general: the selected trades, latest first, up to the first one before `only_after`. -/
theorem C36_general (own : List Trade) (epics : Option (List ℕ)) (openOnly : Bool) (onlyAfter : Option DT) :
    getTrades own epics openOnly onlyAfter =
      (own.reverse.filter (Spec.selected epics openOnly)).takeWhile (Spec.notBefore onlyAfter) :=
  getTrades_go epics openOnly onlyAfter own.reverse

/-- C36 without `only_after`: for every list and both other filters. -/
theorem C36_no_date (own : List Trade) (epics : Option (List ℕ)) (openOnly : Bool) :
    getTrades own epics openOnly none = own.reverse.filter (Spec.selected epics openOnly) := by
  rw [C36_general]
  generalize own.reverse.filter (Spec.selected epics openOnly) = m
  induction m with
  | nil => rfl
  | cons t m ih => rw [List.takeWhile_cons, if_pos (show Spec.notBefore none t = true from rfl), ih]

/-- C36 with `only_after`, for trades in chronological order (`key` is any clock that agrees with the comparisons made,
e.g. the instant).  Missing for the full statement: trades out of order (`C36_false`). -/
theorem C36_filters_partial (own : List Trade) (epics : Option (List ℕ)) (openOnly : Bool) (d : DT) (key : DT → ℤ)
    (hkey : ∀ t ∈ own, t.dt.lt d = decide (key t.dt < key d))
    (hsorted : own.Pairwise (fun a b => key a.dt ≤ key b.dt)) :
    getTrades own epics openOnly (some d) =
      own.reverse.filter (fun t => Spec.selected epics openOnly t && Spec.notBefore (some d) t) := by
  rw [C36_general]
  have hs : own.reverse.Pairwise (fun a b => key b.dt ≤ key a.dt) := by
    rw [List.pairwise_reverse]; exact hsorted
  have hk : ∀ t ∈ own.reverse, t.dt.lt d = decide (key t.dt < key d) := by
    intro t ht; exact hkey t (List.mem_reverse.mp ht)
  generalize own.reverse = l at hs hk
  have hfil : l.filter (fun t => Spec.selected epics openOnly t && Spec.notBefore (some d) t) =
      (l.filter (Spec.selected epics openOnly)).filter (Spec.notBefore (some d)) := by
    rw [List.filter_filter]
    apply List.filter_congr
    intro t _; rw [Bool.and_comm]
  rw [hfil]
  have hs' := hs.filter (Spec.selected epics openOnly)
  have hk' : ∀ t ∈ l.filter (Spec.selected epics openOnly), t.dt.lt d = decide (key t.dt < key d) :=
    fun t ht => hk t (List.mem_of_mem_filter ht)
  generalize l.filter (Spec.selected epics openOnly) = m at hs' hk'
  clear hfil hs hk hsorted hkey l
  induction m with
  | nil => rfl
  | cons t m ih =>
    rw [List.pairwise_cons] at hs'
    rw [List.takeWhile_cons, List.filter_cons]
    have iht := ih hs'.2 (fun x hx => hk' x (List.mem_cons_of_mem _ hx))
    by_cases h : Spec.notBefore (some d) t = true
    · rw [if_pos h, if_pos h, iht]
    · rw [if_neg h]
      simp only [h, Bool.false_eq_true, if_false]
      symm
      rw [List.filter_eq_nil_iff]
      intro x hx
      have h1 := hk' t (by simp)
      have h2 := hk' x (List.mem_cons_of_mem _ hx)
      have h3 := hs'.1 x hx
      simp only [Spec.notBefore, h1, Bool.not_eq_true', decide_eq_false_iff_not, not_not] at h
      simp only [Spec.notBefore, h2, Bool.not_eq_true', decide_eq_false_iff_not, not_not]
      omega

/-! ## C37 -/

/-- Spec: the trades the caller asks about. -/
def Spec.asked (own : List Trade) : TradesArg → List Trade
  | .none => own
  | .list l => l
  | .gen l => l

/-- Spec: the sum of the results, exact. -/
def Spec.total (l : List Trade) : ℚ := (l.map Trade.result).sum

/-- C37 as stated (exact arithmetic). -/
def Spec.C37 : Prop := Exact → ∀ (own : List Trade) (a : TradesArg),
  strategyResult own a = cent (Spec.total (Spec.asked own a))

theorem resolve_asked (own : List Trade) (a : TradesArg) (h : a ≠ .list []) :
    a.resolve own = Spec.asked own a := by
  cases a with
  | none => rfl
  | gen l => rfl
  | list l =>
    change (if l = [] then own else l) = l
    rw [if_neg (fun e => h (by rw [e]))]

/-- C37 in any float format: the results of the given trades are added from left to right in floats and rounded
once. -/
theorem C37_result_in_floats (own : List Trade) (a : TradesArg) (h : a ≠ .list []) :
    strategyResult own a = rnd (fsum ((Spec.asked own a).map Trade.result)) := by
  unfold strategyResult fsum; rw [resolve_asked own a h]

/-- C37 except for the empty list.  Missing for the full statement: `result([])`, which is the result of all trades
(`C37_false`, `C37_empty_list`). -/
theorem C37_result_partial (hE : Exact) (own : List Trade) (a : TradesArg) (h : a ≠ .list []) :
    strategyResult own a = cent (Spec.total (Spec.asked own a)) := by
  rw [C37_result_in_floats own a h, rnd_exact hE, fsum_exact hE]; rfl

/-- C37, the empty list: the result of all trades of the strategy. -/
theorem C37_empty_list (own : List Trade) : strategyResult own (.list []) = strategyResult own .none := rfl

/-- C37, order (exact arithmetic): the order of the trades is irrelevant, list or generator. -/
theorem C37_order_irrelevant (hE : Exact) (own own' l l' : List Trade) (h : l.Perm l') (ho : own.Perm own') :
    strategyResult own (.list l) = strategyResult own' (.list l') ∧
    strategyResult own (.gen l) = strategyResult own' (.gen l') ∧
    strategyResult own (.gen l) = cent (Spec.total l) ∧
    strategyResult own .none = strategyResult own' .none := by
  have ht : ∀ {a b : List Trade}, a.Perm b → Spec.total a = Spec.total b :=
    fun h => (h.map Trade.result).sum_eq
  have hn : strategyResult own .none = strategyResult own' .none := by
    rw [C37_result_partial hE own .none (by simp), C37_result_partial hE own' .none (by simp)]
    exact congrArg cent (ht ho)
  refine ⟨?_, ?_, C37_result_partial hE own (.gen l) (by simp), hn⟩
  · by_cases hl : l = []
    · subst hl
      rw [List.nil_perm] at h
      subst h
      rw [C37_empty_list, C37_empty_list, hn]
    · have hl' : l' ≠ [] := fun e => hl (by rw [e] at h; exact h.eq_nil)
      rw [C37_result_partial hE own (.list l) (by simpa using hl),
        C37_result_partial hE own' (.list l') (by simpa using hl')]
      exact congrArg cent (ht h)
  · rw [C37_result_partial hE own (.gen l) (by simp), C37_result_partial hE own' (.gen l') (by simp)]
    exact congrArg cent (ht h)

/-! ## C38 -/

theorem result_fl (t : Trade) : fl t.result = t.result := fl_idem _

theorem pfSums_eq (l : List Trade) : pfSums l =
    (fsum ((l.map Trade.result).filter (fun r => decide (0 ≤ r))),
     fsum ((l.map Trade.result).filter (fun r => decide (r < 0)))) := by
  unfold pfSums fsum
  have : ∀ (l : List Trade) (a b : ℚ), l.foldl (fun s t => if 0 ≤ t.result then (fadd s.1 t.result, s.2)
      else (s.1, fadd s.2 t.result)) (a, b) =
      (((l.map Trade.result).filter (fun r => decide (0 ≤ r))).foldl fadd a,
        ((l.map Trade.result).filter (fun r => decide (r < 0))).foldl fadd b) := by
    intro l
    induction l with
    | nil => intro a b; rfl
    | cons t l ih =>
      intro a b
      simp only [List.foldl_cons, List.map_cons, List.filter_cons, decide_eq_true_eq]
      by_cases h : 0 ≤ t.result
      · rw [if_pos h, if_pos h, if_neg (not_lt.mpr h), ih]; rfl
      · rw [if_neg h, if_neg h, if_pos (not_le.mp h), ih]; rfl
  exact this l 0 0

theorem fsum_nonneg {l : List ℚ} (h : ∀ x ∈ l, 0 ≤ x) : 0 ≤ fsum l := by
  have : ∀ (l : List ℚ) (a : ℚ), 0 ≤ a → (∀ x ∈ l, 0 ≤ x) → 0 ≤ l.foldl fadd a := by
    intro l
    induction l with
    | nil => intro a ha _; exact ha
    | cons x l ih =>
      intro a ha h
      exact ih _ (fadd_nonneg ha (h x (by simp))) (fun y hy => h y (by simp [hy]))
  exact this l 0 le_rfl h

theorem fsum_neg {l : List ℚ} (hl : l ≠ []) (h : ∀ x ∈ l, x < 0 ∧ fl x = x) : fsum l < 0 := by
  have : ∀ (l : List ℚ) (a : ℚ), a ≤ 0 → (∀ x ∈ l, x < 0 ∧ fl x = x) → (l ≠ [] ∨ a < 0) → l.foldl fadd a < 0 := by
    intro l
    induction l with
    | nil => intro a _ _ ho; rcases ho with ho | ho; exact absurd rfl ho; exact ho
    | cons x l ih =>
      intro a ha h _
      obtain ⟨hx, hfx⟩ := h x (by simp)
      have hlt : fadd a x < 0 := by
        have : fadd a x ≤ fl x := fl_mono (by linarith)
        rw [hfx] at this; linarith
      exact ih _ hlt.le (fun y hy => h y (by simp [hy])) (.inr hlt)
  exact this l 0 le_rfl h (.inl hl)

/-- Spec: sum of the results that are not losses (floats, in order). -/
def Spec.gains (l : List Trade) : ℚ := fsum ((l.map Trade.result).filter (fun r => decide (0 ≤ r)))
/-- Spec: sum of the losses, as a positive number (floats, in order). -/
def Spec.losses (l : List Trade) : ℚ := - fsum ((l.map Trade.result).filter (fun r => decide (r < 0)))

/-- C38 in any float format: never an exception, never negative; without losing trade the (unrounded) sum of the gains;
otherwise gains over `max losses 1`, rounded. -/
theorem C38_profit_factor (own : List Trade) (a : TradesArg) (ha : a ≠ .list []) :
    let l := Spec.asked own a
    ∃ x, profitFactor own a = .ok x ∧ 0 ≤ x ∧
      ((∀ t ∈ l, 0 ≤ t.result) → x = fsum (l.map Trade.result)) ∧
      ((∃ t ∈ l, t.result < 0) → 0 < Spec.losses l ∧ x = rnd (fdiv (Spec.gains l) (max (Spec.losses l) 1))) := by
  intro l
  unfold profitFactor
  rw [resolve_asked own a ha, pfSums_eq]
  have hfs : fsum ((l.map Trade.result).filter (fun r => decide (r < 0))) = - Spec.losses l := by
    unfold Spec.losses; ring
  have hfg : fsum ((l.map Trade.result).filter (fun r => decide (0 ≤ r))) = Spec.gains l := rfl
  change ∃ x, (if fsum ((l.map Trade.result).filter (fun r => decide (r < 0))) = 0 then
    Except.ok (fsum ((l.map Trade.result).filter (fun r => decide (0 ≤ r)))) else
    (do
      let r ← pyDiv (fsum ((l.map Trade.result).filter (fun r => decide (0 ≤ r))))
        (if |fsum ((l.map Trade.result).filter (fun r => decide (r < 0)))| < 1 then 1
          else fsum ((l.map Trade.result).filter (fun r => decide (r < 0))))
      Except.ok |rnd r|)) = Except.ok x ∧ _
  rw [hfs, hfg]
  have hg : 0 ≤ Spec.gains l := fsum_nonneg (fun x hx => by
    have := List.of_mem_filter hx
    simpa using this)
  by_cases hneg : ∃ t ∈ l, t.result < 0
  · have hL : 0 < Spec.losses l := by
      have : fsum ((l.map Trade.result).filter (fun r => decide (r < 0))) < 0 := by
        apply fsum_neg
        · obtain ⟨t, ht, h0⟩ := hneg
          intro he
          have : t.result ∈ (l.map Trade.result).filter (fun r => decide (r < 0)) :=
            List.mem_filter.mpr ⟨List.mem_map_of_mem ht, by simpa using h0⟩
          rw [he] at this; cases this
        · intro x hx
          obtain ⟨h1, h2⟩ := List.mem_filter.mp hx
          obtain ⟨t, -, rfl⟩ := List.mem_map.mp h1
          exact ⟨by simpa using h2, result_fl t⟩
      unfold Spec.losses; linarith
    rw [if_neg (by linarith)]
    have hval : (do
      let r ← pyDiv (Spec.gains l) (if |(-Spec.losses l)| < 1 then 1 else - Spec.losses l)
      Except.ok |rnd r|) = (Except.ok (rnd (fdiv (Spec.gains l) (max (Spec.losses l) 1))) : Except PyErr ℚ) := by
      have hd : 0 ≤ fdiv (Spec.gains l) (max (Spec.losses l) 1) :=
        fl_nonneg (div_nonneg hg (le_trans zero_le_one (le_max_right _ _)))
      rw [abs_neg, abs_of_pos hL]
      by_cases h1 : Spec.losses l < 1
      · rw [if_pos h1, max_eq_right h1.le]
        rw [max_eq_right h1.le] at hd
        unfold pyDiv
        rw [if_neg one_ne_zero]
        show Except.ok _ = _
        rw [abs_of_nonneg (rnd_nonneg hd)]
      · rw [if_neg h1, max_eq_left (not_lt.mp h1)]
        rw [max_eq_left (not_lt.mp h1)] at hd
        unfold pyDiv
        rw [if_neg (by linarith)]
        show Except.ok _ = _
        have : fdiv (Spec.gains l) (-Spec.losses l) = - fdiv (Spec.gains l) (Spec.losses l) := by
          unfold fdiv; rw [div_neg, fl_neg]
        rw [this, rnd_neg, abs_neg, abs_of_nonneg (rnd_nonneg hd)]
    refine ⟨_, hval, ?_, ?_, fun _ => ⟨hL, rfl⟩⟩
    · exact rnd_nonneg (fl_nonneg (div_nonneg hg (le_trans zero_le_one (le_max_right _ _))))
    · intro hall
      obtain ⟨t, ht, h0⟩ := hneg
      exact absurd (hall t ht) (not_le.mpr h0)
  · push Not at hneg
    have hL : Spec.losses l = 0 := by
      unfold Spec.losses
      have : (l.map Trade.result).filter (fun r => decide (r < 0)) = [] := by
        rw [List.filter_eq_nil_iff]
        intro x hx
        obtain ⟨t, ht, rfl⟩ := List.mem_map.mp hx
        simpa using hneg t ht
      rw [this]; simp [fsum]
    rw [if_pos (by linarith)]
    refine ⟨_, rfl, hg, fun _ => ?_, ?_⟩
    · show Spec.gains l = _
      unfold Spec.gains
      rw [List.filter_eq_self.mpr]
      intro x hx
      obtain ⟨t, ht, rfl⟩ := List.mem_map.mp hx
      simpa using hneg t ht
    · rintro ⟨t, ht, h0⟩
      exact absurd (hneg t ht) (not_le.mpr h0)

/-- C38 in exact arithmetic, with gains and losses as plain sums. -/
theorem C38_exact (hE : Exact) (own : List Trade) (a : TradesArg) (ha : a ≠ .list []) :
    let l := Spec.asked own a
    let G := (l.map (fun t => max t.result 0)).sum
    let L := (l.map (fun t => max (-t.result) 0)).sum
    profitFactor own a = .ok (if L = 0 then G else cent (G / max L 1)) ∧ (L = 0 ↔ ∀ t ∈ l, 0 ≤ t.result) := by
  intro l G L
  obtain ⟨x, h1, -, h3, h4⟩ := C38_profit_factor own a ha
  have hG : Spec.gains l = G := by
    unfold Spec.gains
    rw [fsum_exact hE]
    show _ = (l.map (fun t => max t.result 0)).sum
    generalize l = m
    induction m with
    | nil => rfl
    | cons t m ih =>
      simp only [List.map_cons, List.filter_cons, decide_eq_true_eq, List.sum_cons]
      by_cases h : 0 ≤ t.result
      · rw [if_pos h, List.sum_cons, ih, max_eq_left h]
      · rw [if_neg h, ih, max_eq_right (by linarith), zero_add]
  have hLe : Spec.losses l = L := by
    unfold Spec.losses
    rw [fsum_exact hE]
    show _ = (l.map (fun t => max (-t.result) 0)).sum
    generalize l = m
    induction m with
    | nil => simp
    | cons t m ih =>
      simp only [List.map_cons, List.filter_cons, decide_eq_true_eq, List.sum_cons]
      by_cases h : t.result < 0
      · rw [if_pos h, List.sum_cons, ← ih, max_eq_left (by linarith)]; ring
      · rw [if_neg h, ih, max_eq_right (by linarith), zero_add]
  have hL0 : L = 0 ↔ ∀ t ∈ l, 0 ≤ t.result := by
    constructor
    · intro h0 t ht
      by_contra hc
      have := (h4 ⟨t, ht, not_le.mp hc⟩).1
      change 0 < Spec.losses l at this
      rw [hLe] at this; linarith
    · intro hall
      apply List.sum_eq_zero
      intro y hy
      obtain ⟨t, ht, rfl⟩ := List.mem_map.mp hy
      exact max_eq_right (by have := hall t ht; linarith)
  refine ⟨?_, hL0⟩
  rw [h1]
  congr 1
  by_cases h0 : L = 0
  · rw [if_pos h0, h3 (hL0.mp h0), fsum_exact hE]
    congr 1
    apply List.map_congr_left
    intro t ht
    exact (max_eq_left (hL0.mp h0 t ht)).symm
  · rw [if_neg h0]
    have : ∃ t ∈ l, t.result < 0 := by
      by_contra hc
      push Not at hc
      exact h0 (hL0.mpr hc)
    have := (h4 this).2
    change x = rnd (fdiv (Spec.gains l) (max (Spec.losses l) 1)) at this
    rw [this, hG, hLe, rnd_exact hE, fdiv_exact hE]

/-! ## C39 -/

theorem closeOpenedLoop_none (l : List ℕ) : ∀ (w : World), l.Nodup →
    (∀ i ∈ l, ∃ t ep, w.trades[i]? = some t ∧ w.epics[t.epic]? = some ep) →
    ∃ w', closeOpenedLoop none w l = .ok w' ∧ w'.epics = w.epics ∧ w'.trades.length = w.trades.length ∧
      w'.strategies = w.strategies ∧
      (∀ i, i ∉ l → w'.trades[i]? = w.trades[i]?) ∧
      ∀ i ∈ l, ∃ t ep, w.trades[i]? = some t ∧ w.epics[t.epic]? = some ep ∧
        w'.trades[i]? = some (if t.closed then t else t.closeFromTick ep.lastTick none) := by
  induction l with
  | nil =>
    intro w _ _
    exact ⟨w, rfl, rfl, rfl, rfl, fun _ _ => rfl, by simp⟩
  | cons i rest ih =>
    intro w hn h
    rw [List.nodup_cons] at hn
    obtain ⟨t, ep, ht, he⟩ := h i (by simp)
    have hr := fun j (hj : j ∈ rest) => h j (List.mem_cons_of_mem _ hj)
    by_cases hc : t.closed = true
    · obtain ⟨w', g1, g2, g3, g3', g4, g5⟩ := ih w hn.2 hr
      refine ⟨w', ?_, g2, g3, g3', fun j hj => g4 j (fun hm => hj (List.mem_cons_of_mem _ hm)), ?_⟩
      · unfold closeOpenedLoop
        rw [ht]
        simp only
        rw [if_pos hc]; exact g1
      · intro j hj
        rcases List.mem_cons.mp hj with rfl | hj
        · exact ⟨t, ep, ht, he, by rw [g4 _ hn.1, ht, if_pos hc]⟩
        · exact g5 j hj
    · obtain ⟨u, hu⟩ : ∃ u, w.closeTrade t.epic i none = .ok u := by
        unfold World.closeTrade
        rw [he]
        exact closeOn_ok ht he
      have hu' : w.closeOn ep.provider i none = .ok u := by
        unfold World.closeTrade at hu
        rw [he] at hu; exact hu
      obtain ⟨t', ep', c1, c2, c3, c4, c5, c6⟩ := closeOn_get hu'
      obtain ⟨_, _, _, _, hus⟩ := closeOn_eq hu'
      rw [ht] at c1; injection c1 with c1; subst c1
      rw [he] at c2; injection c2 with c2; subst c2
      have hne : ∀ j ∈ rest, j ≠ i := fun j hj e => hn.1 (e ▸ hj)
      obtain ⟨w', g1, g2, g3, g3', g4, g5⟩ := ih u hn.2 (fun j hj => by
        obtain ⟨x, epx, hx, hex⟩ := hr j hj
        exact ⟨x, epx, by rw [c4 j (hne j hj)]; exact hx, by rw [c6]; exact hex⟩)
      refine ⟨w', ?_, g2.trans c6, g3.trans c5, g3'.trans (by rw [hus]; rfl), ?_, ?_⟩
      · unfold closeOpenedLoop
        rw [ht]
        simp only
        rw [if_neg hc, hu]; exact g1
      · intro j hj
        rw [List.mem_cons, not_or] at hj
        rw [g4 j hj.2, c4 j hj.1]
      · intro j hj
        rcases List.mem_cons.mp hj with rfl | hj
        · exact ⟨t, ep, ht, he, by rw [g4 _ hn.1, c3, if_neg hc]⟩
        · obtain ⟨x, epx, k1, k2, k3⟩ := g5 j hj
          exact ⟨x, epx, by rw [← c4 j (hne j hj)]; exact k1, by rw [← c6]; exact k2, k3⟩

/-- `close_opened_trades()` in every reachable state. -/
theorem closeOpened_effect {env : Env} {w : World} (hw : Reachable env w) {s : ℕ} {st : Strategy}
    (hs : w.strategies[s]? = some st) :
    (w.step (.closeOpened s none)).2 = none ∧
    (w.step (.closeOpened s none)).1.epics = w.epics ∧
    (w.step (.closeOpened s none)).1.strategies[s]? = some st ∧
    (w.step (.closeOpened s none)).1.trades.length = w.trades.length ∧
    (∀ i, i ∉ st.trades → (w.step (.closeOpened s none)).1.trades[i]? = w.trades[i]?) ∧
    ∀ i ∈ st.trades, ∃ t ep, w.trades[i]? = some t ∧ w.epics[t.epic]? = some ep ∧
      (w.step (.closeOpened s none)).1.trades[i]? =
        some (if t.closed then t else t.closeFromTick ep.lastTick none) := by
  have hi := hw.regInv
  have hnd : st.trades.reverse.Nodup := by
    rw [List.nodup_reverse]; exact (hi.stratInc s st hs).imp (fun h => h.ne)
  obtain ⟨w', h1, h2, h3, h3', h4, h5⟩ := closeOpenedLoop_none st.trades.reverse w hnd (fun i him => by
    have hlt := hi.stratLt s st hs i (List.mem_reverse.mp him)
    obtain ⟨ep, hep⟩ := hi.epicOk i _ (List.getElem?_eq_getElem hlt)
    exact ⟨_, ep, List.getElem?_eq_getElem hlt, hep⟩)
  have hstep : w.step (.closeOpened s none) = (w', none) := by
    simp only [World.step, hs, h1]; rfl
  rw [hstep]
  refine ⟨rfl, h2, by rw [h3']; exact hs, h3, fun i him => h4 i (by simpa using him), fun i him => h5 i (by simpa using him)⟩

/-- C39: in every reachable state `close_opened_trades()` does not raise; every trade of the strategy is closed
afterwards, the open ones by one close of their whole rest at the closing side of their own epic's last tick, the
closed ones unchanged; no other trade changes. -/
theorem C39_closes_everything {env : Env} {w : World} (hw : Reachable env w) {s : ℕ} {st : Strategy}
    (hs : w.strategies[s]? = some st) :
    let w' := (w.step (.closeOpened s none)).1
    (w.step (.closeOpened s none)).2 = none ∧
    (∀ i ∈ st.trades, ∃ t ep t', w.trades[i]? = some t ∧ w.epics[t.epic]? = some ep ∧ w'.trades[i]? = some t' ∧
      ¬ Spec.IsOpen t' ∧
      (Spec.IsOpen t → t'.closes = t.closes ++ [⟨Spec.exitQuote t.dir ep.lastTick, t.openQty -
        (t.closes.map TradeClose.qty).sum, ep.lastTick.dt, .created⟩]) ∧
      (¬ Spec.IsOpen t → t' = t)) ∧
    (∀ i, i ∉ st.trades → w'.trades[i]? = w.trades[i]?) ∧
    (∀ (i : ℕ) t, w.trades[i]? = some t → t.strategy ≠ some s → w'.trades[i]? = some t) := by
  obtain ⟨h1, h2, h3, h4, h5, h6⟩ := closeOpened_effect hw hs
  intro w'
  refine ⟨h1, ?_, h5, ?_⟩
  · intro i him
    obtain ⟨t, ep, k1, k2, k3⟩ := h6 i him
    by_cases hc : t.closed = true
    · rw [if_pos hc] at k3
      have h0 := (t.closed_iff).mp hc
      exact ⟨t, ep, t, k1, k2, k3, fun ho => ho h0, fun ho => absurd h0 ho, fun _ => rfl⟩
    · rw [if_neg hc] at k3
      refine ⟨t, ep, _, k1, k2, k3, ?_, fun _ => ?_, fun ho => ?_⟩
      · rw [isOpen_iff, not_not, closeFromTick_openedQty, Trade.closeQty_none]; omega
      · unfold Trade.closeFromTick Trade.close
        simp only [C26_valued_at_exit_quote t ep.lastTick (by simpa using hc)]
        simp [updateFromTick_eq, Trade.closeQty_none, Trade.openedQty, Trade.closedQty]
      · exact absurd ((t.closed_iff).mpr (by rw [isOpen_iff, not_not] at ho; exact ho)) hc
  · intro i t ht hne
    show w'.trades[i]? = _
    rw [h5 i ?_]; exact ht
    intro hm
    exact hne ((hw.regInv.stratOf i t s st ht hs).mp hm).1

/-- C39 in valid runs: no trade of the strategy at all, listed or not, is open afterwards. -/
theorem C39_none_open {env : Env} {w : World} (hw : Spec.ValidRun env w) {s : ℕ} {st : Strategy}
    (hs : w.strategies[s]? = some st) (i : ℕ) (t : Trade)
    (ht : (w.step (.closeOpened s none)).1.trades[i]? = some t) (hts : t.strategy = some s) : ¬ Spec.IsOpen t := by
  obtain ⟨-, h2, h3, -⟩ := C39_closes_everything hw.reachable hs
  by_cases hm : i ∈ st.trades
  · obtain ⟨x, ep, x', -, -, k3, k4, -⟩ := h2 i hm
    rw [ht] at k3; injection k3 with k3; subst k3; exact k4
  · have h4 := h3 i hm
    rw [ht] at h4
    have hi := hw.reachable.regInv
    have hnot : ¬ 0 < t.openQty := by
      intro hq
      obtain ⟨p, pr, g1, g2⟩ := hi.listed i t h4.symm hq
      exact hm ((hi.stratOf i t s st h4.symm hs).mpr ⟨hts, p, pr, g1, g2⟩)
    obtain ⟨q1, q2, -⟩ := hw.quantities t (List.mem_of_getElem? h4.symm)
    rw [isOpen_iff]
    unfold Trade.openedQty at q1 ⊢
    omega

/-! ## C56 -/

/-- Spec: gain banked by the closes of a trade (per unit gains are kept in cents). -/
def Spec.realised (t : Trade) : ℚ :=
  (t.closes.map (fun c => (c.qty : ℚ) * cent (Spec.move t.dir t.openValue c.closeValue))).sum
/-- Spec: gain of the open rest of a trade at its current closing value. -/
def Spec.unrealised (t : Trade) : ℚ :=
  ((t.openQty - (t.closes.map TradeClose.qty).sum : ℤ) : ℚ) * cent (Spec.move t.dir t.openValue t.curClose)

theorem result_split (hE : Exact) (t : Trade) : t.result = Spec.realised t + Spec.unrealised t := by
  rw [result_exact hE]
  congr 1
  unfold Trade.closedResult Spec.realised
  rw [fsum_exact hE]
  congr 1
  apply List.map_congr_left
  intro c _
  exact avg_exact hE _ _ _

/-- C56, accounting (exact arithmetic): realised plus unrealised, rounded once. -/
theorem C56_accounting_partial (hE : Exact) (own : List Trade) :
    strategyResult own .none = cent ((own.map Spec.realised).sum + (own.map Spec.unrealised).sum) := by
  rw [C37_result_partial hE own .none (by simp)]
  congr 1
  show Spec.total own = _
  unfold Spec.total
  have : own.map Trade.result = own.map (fun t => Spec.realised t + Spec.unrealised t) :=
    List.map_congr_left (fun t _ => result_split hE t)
  rw [this, List.sum_map_add]

theorem closeFromTick_result (hE : Exact) (t : Trade) (k : Tick) (q : Option ℤ)
    (hcur : t.curClose = Spec.exitQuote t.dir k) : (t.closeFromTick k q).result = t.result := by
  unfold Trade.closeFromTick
  rw [close_at_current hE, updateFromTick_eq]
  apply Trade.result_congr
  · simp
  · simp
  · simp
  · simp
  · rw [Trade.update_curClose]; split_ifs
    · rfl
    · exact hcur.symm

/-- C56, neutrality (exact arithmetic): in every reachable state in which the open trades of the strategy carry their
epic's latest quote, closing all of them does not change its result, and everything is realised then. -/
theorem C56_closing_is_neutral_partial (hE : Exact) {env : Env} {w : World} (hw : Reachable env w) {s : ℕ} {st : Strategy}
    (hs : w.strategies[s]? = some st)
    (hcur : ∀ i ∈ st.trades, ∀ t ep, w.trades[i]? = some t → Spec.IsOpen t → w.epics[t.epic]? = some ep →
      t.curClose = Spec.exitQuote t.dir ep.lastTick) :
    let w' := (w.step (.closeOpened s none)).1
    let own := st.trades.filterMap (fun i => w.trades[i]?)
    let own' := st.trades.filterMap (fun i => w'.trades[i]?)
    strategyResult own' .none = strategyResult own .none ∧
    strategyResult own' .none = cent ((own'.map Spec.realised).sum) ∧ own'.length = own.length := by
  obtain ⟨h1, h2, h3, h4, h5, h6⟩ := closeOpened_effect hw hs
  intro w' own own'
  have key : ∀ l : List ℕ, (∀ i ∈ l, i ∈ st.trades) →
      (l.filterMap (fun i => w'.trades[i]?)).map Trade.result = (l.filterMap (fun i => w.trades[i]?)).map Trade.result ∧
      (∀ t ∈ l.filterMap (fun i => w'.trades[i]?), t.openedQty = 0) := by
    intro l
    induction l with
    | nil => intro _; exact ⟨rfl, by simp⟩
    | cons i l ih =>
      intro hl
      obtain ⟨i1, i2⟩ := ih (fun j hj => hl j (List.mem_cons_of_mem _ hj))
      obtain ⟨t, ep, k1, k2, k3⟩ := h6 i (hl i (by simp))
      have k3' : w'.trades[i]? = some (if t.closed then t else t.closeFromTick ep.lastTick none) := k3
      rw [List.filterMap_cons, List.filterMap_cons, k1, k3']
      simp only [List.map_cons]
      constructor
      · rw [i1]
        congr 1
        split_ifs with hc
        · rfl
        · apply closeFromTick_result hE
          exact hcur i (hl i (by simp)) t ep k1 (by
            rw [isOpen_iff]; intro h0; exact hc (t.closed_iff.mpr h0)) k2
      · intro x hx
        rcases List.mem_cons.mp hx with rfl | hx
        · split_ifs with hc
          · exact t.closed_iff.mp hc
          · rw [closeFromTick_openedQty, Trade.closeQty_none]; omega
        · exact i2 x hx
  obtain ⟨k1, k2⟩ := key st.trades (fun _ h => h)
  have hres : strategyResult own' .none = strategyResult own .none := by
    unfold strategyResult TradesArg.resolve
    show rnd ((own'.map Trade.result).foldl fadd 0) = _
    rw [show own'.map Trade.result = own.map Trade.result from k1]
  refine ⟨hres, ?_, ?_⟩
  · rw [C56_accounting_partial hE]
    have : (own'.map Spec.unrealised).sum = 0 := by
      apply List.sum_eq_zero
      intro x hx
      obtain ⟨t, ht, rfl⟩ := List.mem_map.mp hx
      unfold Spec.unrealised
      have := k2 t ht
      unfold Trade.openedQty Trade.closedQty at this
      rw [this]; simp
    rw [this, add_zero]
  · have := congrArg List.length k1
    simpa using this

end

/-! ## Concrete cases and negations -/

/-- 08:00 of the Monday. -/
def Demo.dt : DT := (Demo.tk 480 0 0).dt

/-- A trade at 490 on epic 1, then one at 480 on epic 0 (each epic has its own clock). -/
def Demo.unordered : List Cmd := [.tick 1 (Demo.tk 490 10 12), .op (.openTrade 1 (some 0) (some .buy) 1),
  .tick 0 (Demo.tk 480 10 12), .op (.openTrade 0 (some 0) (some .buy) 1)]

theorem Demo.unordered_valid : ∀ c ∈ Demo.unordered, c.Valid := by
  intro c hc
  simp only [Demo.unordered, List.mem_cons, List.not_mem_nil, or_false] at hc
  rcases hc with rfl | rfl | rfl | rfl
  · trivial
  · show (0 : ℤ) ≤ 1; decide
  · trivial
  · show (0 : ℤ) ≤ 1; decide

/-- C36 is false: a strategy trading two epics whose ticks are not merged chronologically gets nothing for
`only_after=08:05` although its first trade is of 08:10; the search stops at the trade of 08:00. -/
theorem C36_false : ¬ @Spec.C36 Arith.exact := by
  letI := Arith.exact
  intro h
  have htr : ((Demo.world.runCmds Demo.quiet Demo.unordered).strategies[0]?).map Strategy.trades = some [0, 1] := by
    decide +kernel
  obtain ⟨st, hs, htr⟩ := Option.map_eq_some_iff.mp htr
  have := h Demo.quiet _ (Demo.validRun _ Demo.unordered_valid) 0 st hs none false (some (Demo.tk 485 0 0).dt)
  rw [htr] at this
  revert this
  decide +kernel

/-- Concrete case of C36: three trades in order, all filters at once, and the hypotheses of `C36_filters_partial` with the
wall clock as key. -/
example : letI := Arith.exact
    let b : Trade := Trade.new .buy 1 100 (Demo.tk 480 0 0).dt 0 (some 99) none
    let own := [b, { b with dt := (Demo.tk 490 0 0).dt, epic := 1 }, { b with dt := (Demo.tk 495 0 0).dt },
      ({ b with dt := (Demo.tk 500 0 0).dt } : Trade).close 99 (Demo.tk 501 0 0).dt none, { b with dt := (Demo.tk 510 0 0).dt }]
    let d := (Demo.tk 490 0 0).dt
    (∀ t ∈ own, t.dt.lt d = decide (t.dt.wall < d.wall)) ∧ own.Pairwise (fun a b => a.dt.wall ≤ b.dt.wall) ∧
    getTrades own (some [0]) true (some d) = [{ b with dt := (Demo.tk 510 0 0).dt }, { b with dt := (Demo.tk 495 0 0).dt }] := by
  decide +kernel

/-- C37 is false for the empty list. -/
theorem C37_false : ¬ @Spec.C37 Arith.exact := by
  letI := Arith.exact
  intro h
  have := h exact_exact [Trade.new .buy 1 100 Demo.dt 0 (some 99) none] (.list [])
  revert this
  decide +kernel

/-- The independence from the order needs exact arithmetic: with binary64 floats 1e16, 1, -1e16 in this order give 0, in
another one 1. -/
theorem C37_order_in_binary64 :
    letI := Arith.binary64
    ∃ l l' : List Trade, l.Perm l' ∧ strategyResult l .none ≠ strategyResult l' .none := by
  letI := Arith.binary64
  refine ⟨[Trade.new .buy 1 1 Demo.dt 0 (some 10000000000000002) none, Trade.new .buy 1 1 Demo.dt 0 (some 2) none,
      Trade.new .sell 1 1 Demo.dt 0 (some 10000000000000002) none],
    [Trade.new .buy 1 1 Demo.dt 0 (some 10000000000000002) none, Trade.new .sell 1 1 Demo.dt 0 (some 10000000000000002) none,
      Trade.new .buy 1 1 Demo.dt 0 (some 2) none], (List.Perm.swap _ _ _).cons _, ?_⟩
  decide +kernel

example : letI := Arith.exact
    let l := [Trade.new .buy 3 100 Demo.dt 0 (some 99) none, Trade.new .sell 2 100 Demo.dt 0 (some (191 / 2)) none]
    strategyResult l .none = 6 ∧ strategyResult [] (.list l) = 6 ∧ strategyResult l (.gen []) = 0 := by decide +kernel

/-- Concrete cases of C38: gains 9 over losses 3; losses below 1 count as 1; no loss. -/
example : letI := Arith.exact
    let g := Trade.new .sell 2 100 Demo.dt 0 (some (191 / 2)) none
    let l := Trade.new .buy 3 100 Demo.dt 0 (some 99) none
    let l' := Trade.new .buy 1 100 Demo.dt 0 (some (199 / 2)) none
    profitFactor [g, l] .none = .ok 3 ∧ profitFactor [g, l'] .none = .ok 9 ∧ profitFactor [g, g] .none = .ok 18 ∧
    profitFactor [] .none = .ok 0 := by decide +kernel

/-- Concrete case of C39 and C56 (and their hypotheses): two epics, one trade closed in part, one closed, one of another
strategy. -/
example : letI := Arith.exact
    let w := Demo.world.runCmds Demo.quiet [.tick 0 (Demo.tk 480 10 12), .op (.openTrade 0 (some 0) (some .buy) 5),
      .op (.closeTrade 0 0 (some 2)), .op (.openTrade 1 (some 1) (some .buy) 3), .op (.openTrade 0 (some 0) (some .buy) 1)]
    let w' := (w.step (.closeOpened 0 none)).1
    w.trades.map Trade.openedQty = [3, 3, 1] ∧ w'.trades.map Trade.openedQty = [0, 3, 0] ∧
    w'.trades[1]? = w.trades[1]? ∧
    (w.trades.map fun t => (t.closes.map fun c => (c.closeValue, c.qty))) = [[(10, 2)], [], []] ∧
    (w'.trades.map fun t => (t.closes.map fun c => (c.closeValue, c.qty))) = [[(10, 2), (10, 3)], [], [(10, 1)]] ∧
    (w.trades.map Trade.curClose) = [10, 0, 10] ∧
    strategyResult ([0, 2].filterMap (fun i => w.trades[i]?)) .none = -12 ∧
    strategyResult ([0, 2].filterMap (fun i => w'.trades[i]?)) .none = -12 := by decide +kernel

/-- The neutrality in C56 needs exact arithmetic: with binary64 floats closing 3 units with a gain of 17631997277563.67
each, at the current quote, moves the result of the strategy by a cent. -/
theorem C56_not_in_binary64 :
    letI := Arith.binary64
    ∃ (t z : Trade) (k : Tick), t.curClose = Spec.exitQuote t.dir k ∧ Spec.IsOpen t ∧ ¬ Spec.IsOpen z ∧
      strategyResult [t, z] .none ≠ strategyResult [t.closeFromTick k none, z] .none := by
  letI := Arith.binary64
  refine ⟨Trade.new .buy 3 1 Demo.dt 0 (some (fl (1763199727756467/100))) none,
    (Trade.new .sell 1 1 Demo.dt 0 (some 2) none).close (fl (5289599183269201/100)) Demo.dt none,
    ⟨Demo.dt, fl (1763199727756467/100), fl (1763199727756468/100)⟩, ?_, ?_, ?_, ?_⟩ <;> decide +kernel

end Estrade
