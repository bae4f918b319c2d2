import Verif.Lemmas.Registry

/-!
# Netting on the backtest provider, repricing, and runs with valid quantities
-/

set_option linter.unusedSectionVars false
set_option autoImplicit false

namespace Estrade

section
variable [Arith]

/-! ## Valid runs -/

/-- Spec: `w` is reached by a program all of whose quantities (its own and those of its strategies) are
omitted or not negative. -/
def Spec.ValidRun (env : Env) (w : World) : Prop :=
  ∃ w₀ : World, w₀.Init ∧ env.Valid ∧ ∃ l, (∀ c ∈ l, c.Valid) ∧ w = w₀.runCmds env l

theorem Spec.ValidRun.reachable {env : Env} {w : World} (h : Spec.ValidRun env w) : Reachable env w := by
  obtain ⟨w0, h0, -, l, -, rfl⟩ := h
  exact ⟨w0, h0, l, rfl⟩

theorem Spec.ValidRun.nonNeg {env : Env} {w : World} (h : Spec.ValidRun env w) : NonNeg w := by
  obtain ⟨w0, h0, hv, l, hl, rfl⟩ := h
  refine WSteps.inv (V := True) (I := NonNeg) ?_
    (runCmds_steps (fun _ => hv) l w0 (Init.epicsOk h0) (fun _ => hl)) ?_
  · intro a b ha hb
    cases hb with
    | prim h => exact h.nonNeg ha
    | log ev => exact ha
    | epics es h => exact ha
  · intro t ht; rw [h0.trades] at ht; cases ht

theorem Reachable.epicsOk {env : Env} {w : World} (h : Reachable env w) : EpicsOk w := by
  obtain ⟨w0, h0, l, rfl⟩ := h
  exact WSteps.epicsOk (V := False) (runCmds_steps (fun v => v.elim) l w0 (Init.epicsOk h0) (fun v => v.elim))
    (Init.epicsOk h0)

/-! ## Open trades of a provider -/

theorem mem_openedTrades (w : World) (pr : Provider) (i : ℕ) :
    i ∈ w.openedTrades pr ↔ i ∈ pr.trades ∧ ∃ t, w.trades[i]? = some t ∧ t.openedQty ≠ 0 := by
  unfold World.openedTrades
  rw [List.mem_filter, List.mem_reverse]
  constructor
  · rintro ⟨h1, h2⟩
    rcases ht : w.trades[i]? with _ | t
    · rw [ht] at h2; simp at h2
    · rw [ht] at h2
      refine ⟨h1, t, rfl, fun h0 => ?_⟩
      have := (Trade.closed_iff t).mpr h0
      simp [this] at h2
  · rintro ⟨h1, t, h2, h3⟩
    refine ⟨h1, ?_⟩
    rw [h2]
    have : t.closed = false := by
      rw [Bool.eq_false_iff]; intro h; exact h3 ((Trade.closed_iff t).mp h)
    simp [this]

theorem openedTrades_nodup {w : World} (hi : BookInv w) {p : ℕ} {pr : Provider}
    (hp : w.providers[p]? = some pr) : (w.openedTrades pr).Nodup := by
  unfold World.openedTrades
  apply List.Nodup.filter
  rw [List.nodup_reverse]
  exact (hi.provInc p pr hp).imp (fun h => h.ne)

/-! ## Repricing -/

theorem foldl_modify_get {α : Type} (f : α → α) (l : List ℕ) (hl : l.Nodup) (ts : List α) (i : ℕ) :
    (l.foldl (fun ts i => ts.modify i f) ts)[i]? = (ts[i]?).map (fun t => if i ∈ l then f t else t) := by
  induction l generalizing ts with
  | nil => simp
  | cons j l ih =>
    rw [List.nodup_cons] at hl
    rw [List.foldl_cons, ih hl.2, List.getElem?_modify]
    rcases ts[i]? with _ | t
    · rfl
    · simp only [Option.map_eq_map, Option.map_some]
      by_cases h : j = i
      · subst h; simp [hl.1]
      · simp [h, Ne.symm h]

theorem foldl_world_trades (f : Trade → Trade) (l : List ℕ) (w : World) :
    l.foldl (fun (w : World) i => { w with trades := w.trades.modify i f }) w =
      { w with trades := l.foldl (fun ts i => ts.modify i f) w.trades } := by
  induction l generalizing w with
  | nil => rfl
  | cons j l ih => rw [List.foldl_cons, ih]; rfl

/-- Only the provider's open trades change, and only by `update_from_tick`. -/
theorem updateOpenTrades_get {w : World} (hi : RegInv w) {p : ℕ} {pr : Provider}
    (hp : w.providers[p]? = some pr) (k : Tick) (i : ℕ) :
    (w.updateOpenTrades p k).trades[i]? = (w.trades[i]?).map (fun t =>
      if i ∈ pr.trades ∧ t.openedQty ≠ 0 then t.updateFromTick k else t) := by
  unfold World.updateOpenTrades
  rw [hp]
  simp only
  rw [foldl_world_trades]
  simp only
  rw [foldl_modify_get _ _ (openedTrades_nodup hi.toBookInv hp)]
  rcases ht : w.trades[i]? with _ | t
  · rfl
  · simp only [Option.map_some]
    have : i ∈ w.openedTrades pr ↔ i ∈ pr.trades ∧ t.openedQty ≠ 0 := by
      rw [mem_openedTrades, ht]; simp
    simp only [this]

theorem updateOpenTrades_rest (w : World) (p : ℕ) (k : Tick) :
    (w.updateOpenTrades p k).epics = w.epics ∧ (w.updateOpenTrades p k).providers = w.providers ∧
    (w.updateOpenTrades p k).strategies = w.strategies ∧ (w.updateOpenTrades p k).log = w.log := by
  unfold World.updateOpenTrades
  split
  · exact ⟨rfl, rfl, rfl, rfl⟩
  · rw [foldl_world_trades]; exact ⟨rfl, rfl, rfl, rfl⟩

/-! ## Netting -/

/-- Spec: quantities closed by the code when `q` is opened against open quantities `os`. -/
def Spec.closings : ℤ → List ℤ → List ℤ
  | _, [] => []
  | q, o :: os => (if 0 < q then min o q else o) :: Spec.closings (q - min o q) os

/-- Open quantity of trade `i` (0 when there is no such trade). -/
def World.openQtyOf (w : World) (i : ℕ) : ℤ := match w.trades[i]? with
  | none => 0
  | some t => t.openedQty

/-- Trade `i` is of direction `d` and strategy `s`. -/
def World.isOf (w : World) (d : Dir) (s : Option ℕ) (i : ℕ) : Bool := match w.trades[i]? with
  | none => false
  | some t => decide (t.dir = d ∧ t.strategy = s)

theorem closeOn_get {w w' : World} {p i : ℕ} {q : Option ℤ} (h : w.closeOn p i q = .ok w') :
    ∃ t ep, w.trades[i]? = some t ∧ w.epics[t.epic]? = some ep ∧
      w'.trades[i]? = some (t.closeFromTick ep.lastTick q) ∧
      (∀ j, j ≠ i → w'.trades[j]? = w.trades[j]?) ∧ w'.trades.length = w.trades.length ∧
      w'.epics = w.epics := by
  obtain ⟨t, ep, h1, h2, rfl⟩ := closeOn_eq h
  have hlt : i < w.trades.length := (List.getElem?_eq_some_iff.mp h1).1
  refine ⟨t, ep, h1, h2, ?_, fun j hj => ?_, ?_, rfl⟩
  · show (w.trades.set i _)[i]? = _
    rw [List.getElem?_set_self hlt]
  · show (w.trades.set i _)[j]? = _
    rw [List.getElem?_set_ne (Ne.symm hj)]
  · show (w.trades.set i _).length = _
    simp

theorem closeFromTick_openedQty (t : Trade) (k : Tick) (q : Option ℤ) :
    (t.closeFromTick k q).openedQty = t.openedQty - t.closeQty q := by
  unfold Trade.closeFromTick Trade.updateFromTick
  simp

theorem sum_map_set {ids : List ℕ} (hn : ids.Nodup) {i : ℕ} (hi : i ∈ ids) (f g : ℕ → ℤ) (c : ℤ)
    (h1 : g i = f i + c) (h2 : ∀ j, j ≠ i → g j = f j) : (ids.map g).sum = (ids.map f).sum + c := by
  induction ids with
  | nil => cases hi
  | cons a ids ih =>
    rw [List.nodup_cons] at hn
    simp only [List.map_cons, List.sum_cons]
    by_cases ha : a = i
    · subst ha
      have : ids.map g = ids.map f := by
        apply List.map_congr_left
        intro j hj
        exact h2 j (fun e => hn.1 (e ▸ hj))
      rw [this, h1]; ring
    · rw [h2 a ha, ih hn.2 (by rcases List.mem_cons.mp hi with h | h; exact absurd h.symm ha; exact h)]
      ring

/-- Spec: +1 for long, -1 for short. -/
def Spec.sign : Dir → ℤ
  | .buy => 1
  | .sell => -1

/-- Spec: long minus short open quantity of strategy `s` over the trades `ids`. -/
def Spec.exposure (w : World) (s : Option ℕ) (ids : List ℕ) : ℤ :=
  (ids.map fun i => match w.trades[i]? with
    | none => 0
    | some t => if t.strategy = s then Spec.sign t.dir * t.openedQty else 0).sum

theorem sign_opposite (d : Dir) : Spec.sign d.opposite = - Spec.sign d := by cases d <;> rfl

theorem netLoop_spec {p : ℕ} (l : List ℕ) : ∀ (w w' : World) (new new' : Trade), l.Nodup →
    (∀ i ∈ l, ∃ t, w.trades[i]? = some t ∧ 0 < t.openedQty) → 0 ≤ new.openQty →
    netLoop p w new l = .ok (w', new') →
    let opp := l.filter (w.isOf new.dir.opposite new.strategy)
    let os := opp.map w.openQtyOf
    new' = { new with openQty := max 0 (new.openQty - os.sum) } ∧
    w'.trades.length = w.trades.length ∧ w'.epics = w.epics ∧
    (∀ i, i ∉ opp → w'.trades[i]? = w.trades[i]?) ∧
    (∀ (j i : ℕ), opp[j]? = some i → ∃ t ep c q, w.trades[i]? = some t ∧ w.epics[t.epic]? = some ep ∧
      (Spec.closings new.openQty os)[j]? = some c ∧ t.closeQty (some q) = c ∧
      w'.trades[i]? = some (t.closeFromTick ep.lastTick (some q))) ∧
    (∀ ids : List ℕ, ids.Nodup → (∀ i ∈ opp, i ∈ ids) → Spec.exposure w' new.strategy ids =
      Spec.exposure w new.strategy ids + Spec.sign new.dir * (Spec.closings new.openQty os).sum) := by
  induction l with
  | nil =>
    intro w w' new new' _ _ h0 h
    injection h with h; injection h with h1 h2
    subst h1 h2
    simp only [List.filter_nil, List.map_nil, List.sum_nil, sub_zero, max_eq_right h0]
    refine ⟨trivial, trivial, trivial, fun _ _ => trivial, by simp, by simp [Spec.closings]⟩
  | cons i rest ih =>
    intro w w' new new' hn hl h0 h
    rw [List.nodup_cons] at hn
    obtain ⟨t, ht, hpos⟩ := hl i (by simp)
    have hl' : ∀ j ∈ rest, ∃ t, w.trades[j]? = some t ∧ 0 < t.openedQty := fun j hj => hl j (by simp [hj])
    unfold netLoop at h
    rw [ht] at h
    simp only at h
    by_cases hd : t.dir = new.dir.opposite
    · rw [if_pos hd] at h
      by_cases hs : t.strategy = new.strategy
      · rw [if_neg (by simpa using hs)] at h
        have hof : w.isOf new.dir.opposite new.strategy i = true := by
          unfold World.isOf; rw [ht]; simp [hd, hs]
        rcases hc : w.closeOn p i (some (min t.openedQty new.openQty)) with err | u
        · rw [hc] at h; cases h
        · rw [hc] at h
          obtain ⟨t', ep, c1, c2, c3, c4, c5, c6⟩ := closeOn_get hc
          rw [ht] at c1; injection c1 with c1; subst c1
          have hu : ∀ j ∈ rest, u.trades[j]? = w.trades[j]? := fun j hj =>
            c4 j (fun e => hn.1 (e ▸ hj))
          have hio : ∀ j ∈ rest, u.isOf new.dir.opposite new.strategy j =
              w.isOf new.dir.opposite new.strategy j := by
            intro j hj; unfold World.isOf; rw [hu j hj]
          have hfil : rest.filter (u.isOf new.dir.opposite new.strategy) =
              rest.filter (w.isOf new.dir.opposite new.strategy) :=
            List.filter_congr (fun j hj => by rw [hio j hj])
          have hqs : (rest.filter (w.isOf new.dir.opposite new.strategy)).map u.openQtyOf =
              (rest.filter (w.isOf new.dir.opposite new.strategy)).map w.openQtyOf := by
            apply List.map_congr_left
            intro j hj
            unfold World.openQtyOf; rw [hu j (List.mem_of_mem_filter hj)]
          have hmn : 0 ≤ min t.openedQty new.openQty := le_min hpos.le h0
          obtain ⟨g1, g2, g3, g4, g5, g6⟩ := ih u w'
            { new with openQty := new.openQty - min t.openedQty new.openQty } new' hn.2
            (fun j hj => by obtain ⟨x, hx, hx'⟩ := hl' j hj; exact ⟨x, by rw [hu j hj]; exact hx, hx'⟩)
            (by simp only; omega) h
          simp only at g1 g2 g3 g4 g5 g6
          rw [hfil, hqs] at g1
          rw [hfil] at g4
          rw [hfil] at g5
          rw [hqs] at g5
          rw [hfil] at g6
          rw [hqs] at g6
          intro opp os
          have hopp : opp = i :: rest.filter (w.isOf new.dir.opposite new.strategy) := by
            show List.filter _ (i :: rest) = _
            rw [List.filter_cons, if_pos hof]
          have hos : os = t.openedQty ::
              (rest.filter (w.isOf new.dir.opposite new.strategy)).map w.openQtyOf := by
            show opp.map _ = _
            rw [hopp, List.map_cons]
            congr 1
            unfold World.openQtyOf; rw [ht]
          set c : ℤ := if 0 < new.openQty then min t.openedQty new.openQty else t.openedQty with hcdef
          have hcl : Spec.closings new.openQty os = c :: Spec.closings
              (new.openQty - min t.openedQty new.openQty)
              ((rest.filter (w.isOf new.dir.opposite new.strategy)).map w.openQtyOf) := by
            rw [hos]; rfl
          have hcq : t.closeQty (some (min t.openedQty new.openQty)) = c := by
            rw [hcdef]
            split_ifs with h1
            · rw [Trade.closeQty_of_ne _ (by have := lt_min hpos h1; omega)]
              omega
            · have : min t.openedQty new.openQty = 0 := by omega
              rw [this, Trade.closeQty_zero]
          have hinr : i ∉ rest.filter (w.isOf new.dir.opposite new.strategy) :=
            fun hm => hn.1 (List.mem_of_mem_filter hm)
          refine ⟨?_, g2.trans c5, g3.trans c6, ?_, ?_, ?_⟩
          · rw [g1, hos]
            simp only [List.sum_cons]
            congr 1
            have hnn : 0 ≤ ((rest.filter (w.isOf new.dir.opposite new.strategy)).map w.openQtyOf).sum := by
              apply List.sum_nonneg
              intro x hx
              obtain ⟨j, hj, rfl⟩ := List.mem_map.mp hx
              obtain ⟨y, hy, hy'⟩ := hl' j (List.mem_of_mem_filter hj)
              unfold World.openQtyOf; rw [hy]; exact hy'.le
            omega
          · intro j hj
            rw [hopp, List.mem_cons, not_or] at hj
            rw [g4 j hj.2, c4 j hj.1]
          · intro j k hjk
            rw [hopp] at hjk
            rw [hcl]
            cases j with
            | zero =>
              simp only [List.getElem?_cons_zero, Option.some.injEq] at hjk
              subst hjk
              refine ⟨t, ep, c, _, ht, c2, rfl, hcq, ?_⟩
              rw [g4 i hinr, c3]
            | succ j =>
              simp only [List.getElem?_cons_succ] at hjk ⊢
              obtain ⟨x, epx, cx, qx, k1, k2, k3, k4, k5⟩ := g5 j k hjk
              have hk : k ∈ rest := List.mem_of_mem_filter (List.mem_of_getElem? hjk)
              exact ⟨x, epx, cx, qx, by rw [← hu k hk]; exact k1, by rw [← c6]; exact k2, k3, k4, k5⟩
          · intro ids hids hsub
            rw [g6 ids hids (fun j hj => hsub j (by rw [hopp]; simp [hj])), hcl, List.sum_cons]
            have hi : i ∈ ids := hsub i (by rw [hopp]; simp)
            have := sum_map_set hids hi
              (fun j => match w.trades[j]? with
                | none => 0
                | some t => if t.strategy = new.strategy then Spec.sign t.dir * t.openedQty else 0)
              (fun j => match u.trades[j]? with
                | none => 0
                | some t => if t.strategy = new.strategy then Spec.sign t.dir * t.openedQty else 0)
              (Spec.sign new.dir * c) (by
                simp only [c3, ht]
                have hk := kept_closeFromTick t ep.lastTick (some (min t.openedQty new.openQty))
                rw [if_pos (hk.strategy.trans hs), if_pos hs, hk.dir, closeFromTick_openedQty, hcq, hd,
                  sign_opposite]
                ring) (by
                intro j hj
                simp only [c4 j hj])
            unfold Spec.exposure
            rw [this]
            ring
      · rw [if_pos (by simpa using hs)] at h
        have hof : w.isOf new.dir.opposite new.strategy i = false := by
          unfold World.isOf; rw [ht]; simp [hs]
        rw [List.filter_cons, hof]
        exact ih w w' new new' hn.2 hl' h0 h
    · rw [if_neg hd] at h
      have hof : w.isOf new.dir.opposite new.strategy i = false := by
        unfold World.isOf; rw [ht]; simp [hd]
      rw [List.filter_cons, hof]
      exact ih w w' new new' hn.2 hl' h0 h

/-- Netting touches only opposite trades of the same strategy, whatever the quantities. -/
theorem netLoop_others {p : ℕ} (l : List ℕ) : ∀ (w w' : World) (new new' : Trade),
    netLoop p w new l = .ok (w', new') →
    w'.trades.length = w.trades.length ∧ (∃ n, new' = { new with openQty := n }) ∧
    ∀ (i : ℕ) t, w.trades[i]? = some t → (t.dir = new.dir ∨ t.strategy ≠ new.strategy) →
      w'.trades[i]? = some t := by
  induction l with
  | nil =>
    intro w w' new new' h
    injection h with h; injection h with h1 h2
    subst h1 h2
    exact ⟨rfl, ⟨_, rfl⟩, fun _ _ h _ => h⟩
  | cons i rest ih =>
    intro w w' new new' h
    unfold netLoop at h
    split at h
    · cases h
    · rename_i t ht
      split_ifs at h with hd hs
      · exact ih w w' new new' h
      · simp only at h
        rcases hc : w.closeOn p i (some (min t.openedQty new.openQty)) with err | u
        · rw [hc] at h; cases h
        · rw [hc] at h
          obtain ⟨t', ep, c1, c2, c3, c4, c5, c6⟩ := closeOn_get hc
          rw [ht] at c1; injection c1 with c1; subst c1
          obtain ⟨g1, ⟨n, g2⟩, g3⟩ := ih _ _ _ _ h
          refine ⟨g1.trans c5, ⟨n, g2⟩, fun j x hx hor => g3 j x ?_ hor⟩
          by_cases hj : j = i
          · subst hj
            rw [ht] at hx; injection hx with hx; subst hx
            rcases hor with hor | hor
            · rw [hd] at hor; cases hnd : new.dir <;> rw [hnd] at hor <;> cases hor
            · push Not at hs
              exact absurd hs hor
          · rw [c4 j hj]; exact hx
      · exact ih w w' new new' h

end
end Estrade
