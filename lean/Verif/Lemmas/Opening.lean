import Verif.Lemmas.Netting
import Verif.Props.Trades

/-!
# Opening a trade on the backtest provider
-/

set_option linter.unusedSectionVars false
set_option autoImplicit false

namespace Estrade

/-! ## Arithmetic of the closings -/

/-- Spec: open quantity beyond the trade in which the new quantity is used up. -/
def Spec.excess : ℤ → List ℤ → ℤ
  | _, [] => 0
  | q, o :: os => if q ≤ o then os.sum else Spec.excess (q - o) os

theorem sum_pos_nonneg {os : List ℤ} (h : ∀ o ∈ os, 0 < o) : 0 ≤ os.sum :=
  List.sum_nonneg (fun o ho => (h o ho).le)

theorem closings_zero (os : List ℤ) (h : ∀ o ∈ os, 0 < o) : Spec.closings 0 os = os := by
  induction os with
  | nil => rfl
  | cons o os ih =>
    have h0 := h o (by simp)
    unfold Spec.closings
    rw [if_neg (lt_irrefl _), min_eq_right h0.le, sub_zero, ih (fun x hx => h x (by simp [hx]))]

theorem closings_length (q : ℤ) (os : List ℤ) : (Spec.closings q os).length = os.length := by
  induction os generalizing q with
  | nil => rfl
  | cons o os ih => simp [Spec.closings, ih]

theorem closings_sum (os : List ℤ) (h : ∀ o ∈ os, 0 < o) (q : ℤ) (hq : 0 < q) :
    (Spec.closings q os).sum + max 0 (q - os.sum) = q + Spec.excess q os := by
  induction os generalizing q with
  | nil => simp [Spec.closings, Spec.excess]; omega
  | cons o os ih =>
    have ho := h o (by simp)
    have h' : ∀ x ∈ os, 0 < x := fun x hx => h x (by simp [hx])
    have hs := sum_pos_nonneg h'
    simp only [Spec.closings, if_pos hq, List.sum_cons, Spec.excess]
    split_ifs with hc
    · rw [min_eq_right hc, sub_self, closings_zero os h']; omega
    · push Not at hc
      rw [min_eq_left hc.le]
      have := ih h' (q - o) (by omega)
      omega

theorem excess_eq_zero (os : List ℤ) (h : ∀ o ∈ os, 0 < o) (q : ℤ) :
    Spec.excess q os = 0 ↔ os.length ≤ 1 ∨ os.dropLast.sum < q := by
  induction os generalizing q with
  | nil => simp [Spec.excess]
  | cons o os ih =>
    have ho := h o (by simp)
    have h' : ∀ x ∈ os, 0 < x := fun x hx => h x (by simp [hx])
    have hs := sum_pos_nonneg h'
    cases os with
    | nil => simp [Spec.excess]
    | cons a os =>
      have ha := h' a (by simp)
      have hs' := sum_pos_nonneg (fun x hx => h' x (List.mem_cons_of_mem _ hx))
      have hd := sum_pos_nonneg (os := (a :: os).dropLast) (fun x hx => h' x (List.dropLast_subset _ hx))
      have ihq := ih h' (q - o)
      rw [Spec.excess, List.dropLast_cons_cons, List.sum_cons (a := o)]
      simp only [List.length_cons] at ihq ⊢
      split_ifs with hc
      · constructor
        · intro hz; rw [List.sum_cons] at hz; omega
        · rintro (hz | hz) <;> omega
      · push Not at hc
        rw [ihq]
        constructor
        · rintro (hz | hz)
          · right
            have : os = [] := by simpa using hz
            subst this
            simpa using hc
          · right; omega
        · rintro (hz | hz)
          · omega
          · right; omega

/-- At most one opposite trade survives; none when quantity is left over. -/
theorem closings_survivor (os : List ℤ) (h : ∀ o ∈ os, 0 < o) (q : ℤ) (hq : 0 ≤ q) :
    (∀ (i j : ℕ) (oi oj ci cj : ℤ), os[i]? = some oi → os[j]? = some oj → (Spec.closings q os)[i]? = some ci →
      (Spec.closings q os)[j]? = some cj → oi ≠ ci → oj ≠ cj → i = j) ∧
    (os.sum < q → Spec.closings q os = os) ∧
    (∀ (i : ℕ) (oi ci : ℤ), os[i]? = some oi → (Spec.closings q os)[i]? = some ci → 0 < ci ∧ ci ≤ oi) := by
  induction os generalizing q with
  | nil => exact ⟨by simp, fun _ => rfl, by simp⟩
  | cons o os ih =>
    have ho := h o (by simp)
    have h' : ∀ x ∈ os, 0 < x := fun x hx => h x (by simp [hx])
    have hs := sum_pos_nonneg h'
    obtain ⟨i1, i2, i3⟩ := ih h' (q - min o q) (by omega)
    refine ⟨?_, ?_, ?_⟩
    · intro i j oi oj ci cj hi hj hci hcj hni hnj
      have hex : (if 0 < q then min o q else o) ≠ o → q - min o q = 0 := by
        intro hne; split_ifs at hne <;> omega
      cases i with
      | zero =>
        cases j with
        | zero => rfl
        | succ j =>
          exfalso
          simp only [Spec.closings, List.getElem?_cons_zero, List.getElem?_cons_succ,
            Option.some.injEq] at hi hj hci hcj
          have h0 := hex (by rw [hci, hi]; exact Ne.symm hni)
          rw [h0, closings_zero os h', hj] at hcj
          injection hcj with hcj; exact hnj hcj
      | succ i =>
        cases j with
        | zero =>
          exfalso
          simp only [Spec.closings, List.getElem?_cons_zero, List.getElem?_cons_succ,
            Option.some.injEq] at hi hj hci hcj
          have h0 := hex (by rw [hcj, hj]; exact Ne.symm hnj)
          rw [h0, closings_zero os h', hi] at hci
          injection hci with hci; exact hni hci
        | succ j =>
          simp only [Spec.closings, List.getElem?_cons_succ] at hi hj hci hcj
          rw [i1 i j oi oj ci cj hi hj hci hcj hni hnj]
    · intro hlt
      simp only [List.sum_cons] at hlt
      simp only [Spec.closings]
      rw [i2 (by omega), if_pos (by omega), min_eq_left (by omega)]
    · intro i oi ci hi hci
      cases i with
      | zero =>
        simp only [Spec.closings, List.getElem?_cons_zero, Option.some.injEq] at hi hci
        subst hi hci
        split_ifs <;> omega
      | succ i =>
        simp only [Spec.closings, List.getElem?_cons_succ] at hi hci
        exact i3 i oi ci hi hci

section
variable [Arith]

/-! ## The operation -/

theorem closeOn_ok {w : World} {p i : ℕ} {q : Option ℤ} {t : Trade} {ep : Epic}
    (ht : w.trades[i]? = some t) (he : w.epics[t.epic]? = some ep) : ∃ w', w.closeOn p i q = .ok w' := by
  unfold World.closeOn
  rw [ht]; simp only; rw [he]
  exact ⟨_, rfl⟩

theorem netLoop_ok {p : ℕ} (l : List ℕ) : ∀ (w : World) (new : Trade),
    (∀ i ∈ l, ∃ t ep, w.trades[i]? = some t ∧ w.epics[t.epic]? = some ep) →
    ∃ r, netLoop p w new l = .ok r := by
  induction l with
  | nil => intro w new _; exact ⟨_, rfl⟩
  | cons i rest ih =>
    intro w new h
    obtain ⟨t, ep, ht, he⟩ := h i (by simp)
    have hr := fun j (hj : j ∈ rest) => h j (List.mem_cons_of_mem _ hj)
    unfold netLoop
    rw [ht]
    simp only
    split_ifs
    · exact ih w new hr
    · obtain ⟨u, hu⟩ := closeOn_ok (p := p) (q := some (min t.openedQty new.openQty)) ht he
      rw [hu]
      obtain ⟨t', ep', c1, c2, c3, c4, -, c6⟩ := closeOn_get hu
      refine ih u _ (fun j hj => ?_)
      obtain ⟨x, epx, hx, hex⟩ := hr j hj
      by_cases hji : j = i
      · subst hji
        rw [ht] at c1; injection c1 with c1; subst c1
        exact ⟨_, ep', c3, by rw [c6, (kept_closeFromTick t _ _).epic]; exact c2⟩
      · exact ⟨x, epx, by rw [c4 j hji]; exact hx, by rw [c6]; exact hex⟩
    · exact ih w new hr

/-- Spec: the trades of provider `pr` of direction `d` and strategy `s` that are open, most recent first. -/
def Spec.openTradesOf (w : World) (pr : Provider) (d : Dir) (s : Option ℕ) : List ℕ :=
  pr.trades.reverse.filter fun i => match w.trades[i]? with
    | none => false
    | some t => decide (t.dir = d ∧ t.strategy = s ∧ t.openQty - (t.closes.map TradeClose.qty).sum ≠ 0)

/-- Spec: the quantity of a trade still open. -/
def Spec.openQuantity (w : World) (i : ℕ) : ℤ := match w.trades[i]? with
  | none => 0
  | some t => t.openQty - (t.closes.map TradeClose.qty).sum

theorem openTradesOf_eq (w : World) (pr : Provider) (d : Dir) (s : Option ℕ) :
    (w.openedTrades pr).filter (w.isOf d s) = Spec.openTradesOf w pr d s := by
  unfold World.openedTrades Spec.openTradesOf
  rw [List.filter_filter]
  apply List.filter_congr
  intro i _
  unfold World.isOf
  rcases w.trades[i]? with _ | t
  · rfl
  · have h1 := Trade.closed_iff t
    have h2 : t.openQty - (t.closes.map TradeClose.qty).sum = t.openedQty := rfl
    simp only [h2, ne_eq]
    rw [Bool.eq_iff_iff, Bool.and_eq_true, decide_eq_true_eq, decide_eq_true_eq, Bool.not_eq_true',
      ← Bool.not_eq_true, h1]
    tauto

theorem openQuantity_eq (w : World) : w.openQtyOf = Spec.openQuantity w := by
  funext i; unfold World.openQtyOf Spec.openQuantity; rfl

theorem netLoop_rest {p : ℕ} (l : List ℕ) : ∀ (w w' : World) (new new' : Trade),
    netLoop p w new l = .ok (w', new') →
    w'.strategies = w.strategies ∧ w'.providers.map Provider.trades = w.providers.map Provider.trades ∧
    w'.providers.map Provider.kind = w.providers.map Provider.kind := by
  induction l with
  | nil =>
    intro w w' new new' h
    injection h with h; injection h with h1 h2
    subst h1; exact ⟨rfl, rfl, rfl⟩
  | cons i rest ih =>
    intro w w' new new' h
    unfold netLoop at h
    split at h
    · cases h
    · rename_i t ht
      split_ifs at h with hd hs
      · exact ih w w' new new' h
      · simp only at h
        rcases hc : w.closeOn p i (some (min t.openedQty new.openQty)) with err | u
        · rw [hc] at h; cases h
        · rw [hc] at h
          obtain ⟨t', ep, -, -, rfl⟩ := closeOn_eq hc
          obtain ⟨g1, g2, g3⟩ := ih _ _ _ _ h
          refine ⟨g1, g2.trans ?_, g3.trans ?_⟩
          · show (w.providers.modify p _).map Provider.trades = _
            rw [map_modify_eq]; intro x; rfl
          · show (w.providers.modify p _).map Provider.kind = _
            rw [map_modify_eq]; intro x; rfl
      · exact ih w w' new new' h

/-- Everything `provider.open_trade(trade)` does on a backtest provider, for valid worlds and a trade without closes. -/
theorem providerOpen_backtests {w : World} (hi : BookInv w) (hn : NonNeg w) {p : ℕ} {pr : Provider}
    (hpr : w.providers[p]? = some pr) (hk : pr.kind = .backtests) (t : Trade) (htc : t.closes = [])
    {q : ℤ} {d : Dir} {s : Option ℕ} (hto : t.openQty = q) (htd : t.dir = d) (hts : t.strategy = s) (hq : 0 ≤ q) :
    let opp := Spec.openTradesOf w pr d.opposite s
    let os := opp.map (Spec.openQuantity w)
    ∃ w', w.providerOpen p t = .ok w' ∧
    w'.trades[w.trades.length]? = some { t with openQty := max 0 (q - os.sum) } ∧
    w'.trades.length = w.trades.length + 1 ∧
    (∀ i, i < w.trades.length → i ∉ opp → w'.trades[i]? = w.trades[i]?) ∧
    (∀ (j i : ℕ), opp[j]? = some i → ∃ t' ept c r, w.trades[i]? = some t' ∧ w.epics[t'.epic]? = some ept ∧
      (Spec.closings q os)[j]? = some c ∧ t'.closeQty (some r) = c ∧
      w'.trades[i]? = some (t'.closeFromTick ept.lastTick (some r))) ∧
    (∃ pr', w'.providers[p]? = some pr' ∧
      pr'.trades = pr.trades ++ (if os.sum < q then [w.trades.length] else [])) ∧
    (∀ ids : List ℕ, ids.Nodup → (∀ i ∈ opp, i ∈ ids) → (∀ i ∈ ids, i < w.trades.length) →
      Spec.exposure w' s (ids ++ [w.trades.length]) = Spec.exposure w s ids +
        Spec.sign d * ((Spec.closings q os).sum + max 0 (q - os.sum))) ∧
    (∀ (k : ℕ) st, w.strategies[k]? = some st → ∃ st', w'.strategies[k]? = some st' ∧
      st'.trades = st.trades ++ (if s = some k ∧ os.sum < q then [w.trades.length] else [])) := by
  intro opp os
  have hall : ∀ i ∈ w.openedTrades pr, ∃ t, w.trades[i]? = some t ∧ 0 < t.openedQty := by
    intro i hio
    obtain ⟨h1, x, h2, h3⟩ := (mem_openedTrades w pr i).mp hio
    have := hn x (List.mem_of_getElem? h2)
    exact ⟨x, h2, by omega⟩
  obtain ⟨⟨u, new'⟩, hr⟩ := netLoop_ok (p := p) (w.openedTrades pr) w t (fun i hio => by
    obtain ⟨x, hx, -⟩ := hall i hio
    obtain ⟨epx, hex⟩ := hi.epicOk i x hx
    exact ⟨x, epx, hx, hex⟩)
  obtain ⟨n1, n2, n3, n4, n5, n6⟩ := netLoop_spec _ w u t new' (openedTrades_nodup hi hpr) hall (by rw [hto]; exact hq) hr
  obtain ⟨r1, r2, r3⟩ := netLoop_rest _ _ _ _ _ hr
  have n1' : new' = { t with openQty := max 0 (q - os.sum) } := by
    rw [n1]; simp only [htd, hts, openTradesOf_eq, openQuantity_eq, hto]; rfl
  clear n1
  rename new' = _ => n1
  rw [htd, hts, openTradesOf_eq, openQuantity_eq, hto] at n5 n6
  rw [htd, hts, openTradesOf_eq] at n4
  obtain ⟨w', hw', hstep⟩ : ∃ w', w' = (if new'.openQty ≤ 0 then ({ u with trades := u.trades ++ [new'] } : World)
        else ({ u with trades := u.trades ++ [new'] } : World).register p u.trades.length s) ∧
      w.providerOpen p t = .ok w' := by
    refine ⟨_, rfl, ?_⟩
    unfold World.providerOpen
    rw [hpr]
    simp only [hk, hr, hts, bind, Except.bind]
    split_ifs <;> rfl
  have hnq : new'.openQty = max 0 (q - os.sum) := by rw [n1]
  have htr : w'.trades = u.trades ++ [new'] := by
    rw [hw']; split_ifs
    · rfl
    · unfold World.register; cases s <;> rfl
  have hold : ∀ i, i < w.trades.length → w'.trades[i]? = u.trades[i]? := by
    intro i hlt; rw [htr, List.getElem?_append_left (by omega)]
  have hmem : ∀ i ∈ opp, i < w.trades.length := by
    intro i hio
    have : i ∈ pr.trades := by
      have := List.mem_of_mem_filter hio
      rwa [List.mem_reverse] at this
    exact hi.provLt _ pr hpr i this
  have hnewget : w'.trades[w.trades.length]? = some new' := by
    rw [htr, ← n2]; simp
  refine ⟨w', hstep, ?_, ?_, ?_, ?_, ?_, ?_, ?_⟩
  · rw [hnewget, n1]
  · rw [htr]; simp [n2]
  · intro i hlt hni; rw [hold i hlt]; exact n4 i hni
  · intro j i hji
    obtain ⟨x, epx, c, r, k1, k2, k3, k4, k5⟩ := n5 j i hji
    exact ⟨x, epx, c, r, k1, k2, k3, k4, by rw [hold i (hmem i (List.mem_of_getElem? hji))]; exact k5⟩
  · obtain ⟨pu, hpu, hput⟩ : ∃ pu, u.providers[p]? = some pu ∧ pu.trades = pr.trades := by
      have := congrArg (fun l => l[p]?) r2
      simp only [List.getElem?_map, hpr, Option.map_some] at this
      rcases hx : u.providers[p]? with _ | pu
      · rw [hx] at this; cases this
      · rw [hx] at this; injection this with this; exact ⟨pu, rfl, this⟩
    rw [hw', hnq]
    by_cases hc : os.sum < q
    · rw [if_neg (by omega)]
      refine ⟨({ pu with trades := pu.trades ++ [u.trades.length] } : Provider).spawn (.opening u.trades.length),
        ?_, ?_⟩
      · unfold World.register
        cases s <;>
        · simp only [World.modProvider, World.modStrategy]
          rw [List.getElem?_modify, List.getElem?_modify, hpu]
          simp
      · show pu.trades ++ [u.trades.length] = _
        rw [hput, n2, if_pos hc]
    · rw [if_pos (by omega)]
      exact ⟨pu, hpu, by rw [hput, if_neg hc, List.append_nil]⟩
  · intro ids hids hsub hlt
    have h6 := n6 ids hids hsub
    have happ : ∀ (v : World) a b, Spec.exposure v s (a ++ b) = Spec.exposure v s a + Spec.exposure v s b := by
      intro v a b; unfold Spec.exposure; rw [List.map_append, List.sum_append]
    rw [happ]
    have h7 : Spec.exposure w' s ids = Spec.exposure u s ids := by
      unfold Spec.exposure
      congr 1
      apply List.map_congr_left
      intro i hi'
      rw [hold i (hlt i hi')]
    have h8 : Spec.exposure w' s [w.trades.length] = Spec.sign d * max 0 (q - os.sum) := by
      unfold Spec.exposure
      simp only [List.map_cons, List.map_nil, List.sum_cons, List.sum_nil, add_zero, hnewget]
      rw [n1]
      simp only [hts, htd, if_true, Trade.openedQty, Trade.closedQty, htc, List.map_nil, List.sum_nil, sub_zero]
    rw [h7, h6, h8]
    ring
  · intro k st hst
    rw [hw', hnq]
    by_cases hc : os.sum < q
    · rw [if_neg (by omega)]
      unfold World.register
      cases s with
      | none => exact ⟨st, by simp only [World.modProvider]; rw [r1]; exact hst, by simp⟩
      | some k' =>
        simp only [World.modProvider, World.modStrategy]
        rw [List.getElem?_modify, r1, hst]
        by_cases hk' : k' = k
        · subst hk'; refine ⟨_, rfl, ?_⟩; simp [hc, n2]
        · refine ⟨_, rfl, ?_⟩; simp [hk']
    · rw [if_pos (by omega)]
      exact ⟨st, by show u.strategies[k]? = _; rw [r1]; exact hst, by simp [hc]⟩

/-- Everything a backtest open does, for valid worlds. -/
theorem openTrade_backtests {w : World} (hi : RegInv w) (hn : NonNeg w) {e : ℕ} {ep : Epic}
    (hep : w.epics[e]? = some ep) {pr : Provider} (hpr : w.providers[ep.provider]? = some pr)
    (hk : pr.kind = .backtests) (s : Option ℕ) (hs : ∀ k, s = some k → k < w.strategies.length) (d : Dir)
    (q : ℤ) (hq : 0 ≤ q) :
    let opp := Spec.openTradesOf w pr d.opposite s
    let os := opp.map (Spec.openQuantity w)
    let w' := (w.step (.openTrade e s (some d) q)).1
    (w.step (.openTrade e s (some d) q)).2 = none ∧
    (∃ t, Trade.openFromTick ep.lastTick e (some d) q s = .ok t ∧
      w'.trades[w.trades.length]? = some { t with openQty := max 0 (q - os.sum) }) ∧
    w'.trades.length = w.trades.length + 1 ∧
    (∀ i, i < w.trades.length → i ∉ opp → w'.trades[i]? = w.trades[i]?) ∧
    (∀ (j i : ℕ), opp[j]? = some i → ∃ t ept c r, w.trades[i]? = some t ∧ w.epics[t.epic]? = some ept ∧
      (Spec.closings q os)[j]? = some c ∧ t.closeQty (some r) = c ∧
      w'.trades[i]? = some (t.closeFromTick ept.lastTick (some r))) ∧
    (∃ pr', w'.providers[ep.provider]? = some pr' ∧
      pr'.trades = pr.trades ++ (if os.sum < q then [w.trades.length] else [])) ∧
    (∀ ids : List ℕ, ids.Nodup → (∀ i ∈ opp, i ∈ ids) → (∀ i ∈ ids, i < w.trades.length) →
      Spec.exposure w' s (ids ++ [w.trades.length]) = Spec.exposure w s ids +
        Spec.sign d * ((Spec.closings q os).sum + max 0 (q - os.sum))) ∧
    (∀ (k : ℕ) st, w.strategies[k]? = some st → ∃ st', w'.strategies[k]? = some st' ∧
      st'.trades = st.trades ++ (if s = some k ∧ os.sum < q then [w.trades.length] else [])) := by
  intro opp os w'
  obtain ⟨t, ht, hto, htd, htc, hts, hte⟩ : ∃ t, Trade.openFromTick ep.lastTick e (some d) q s = .ok t ∧
      t.openQty = q ∧ t.dir = d ∧ t.closes = [] ∧ t.strategy = s ∧ t.epic = e := by
    cases d <;> exact ⟨_, rfl, rfl, rfl, rfl, rfl, rfl⟩
  obtain ⟨v, v1, v2, v3, v4, v5, v6, v7, v8⟩ := providerOpen_backtests hi.toBookInv hn hpr hk t htc hto htd hts hq
  have hstep : w.step (.openTrade e s (some d) q) = (v, none) := by
    simp only [World.step, hep]
    rw [if_pos (by
      cases s with
      | none => rfl
      | some k => simpa using hs k rfl)]
    rw [ht]
    show orKeep w (w.providerOpen ep.provider t) = _
    rw [v1]
    rfl
  have hw' : w' = v := by show (w.step _).1 = _; rw [hstep]
  rw [hw']
  exact ⟨by rw [hstep], ⟨t, ht, v2⟩, v3, v4, v5, v6, v7, v8⟩

end
end Estrade
