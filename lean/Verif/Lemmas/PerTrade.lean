import Verif.Lemmas.Netting

/-!
# Invariants of single trades along runs
-/

set_option linter.unusedSectionVars false
set_option autoImplicit false

namespace Estrade

section
variable [Arith]

/-- A predicate of single trades that holds of new trades and survives all changes of a trade. -/
structure TradeInv (V : Prop) (P : Trade → Prop) : Prop where
  fresh : ∀ t, t.closes = [] → (V → 0 ≤ t.openQty) → P t
  update : ∀ t v, P t → P (t.update v)
  close : ∀ t v dt q, P t → (V → 0 ≤ t.openedQty) → (V → QOk q) → P (t.close v dt q)
  status : ∀ t st, P t → P { t with status := st }
  closeStatus : ∀ t k st, P t → P { t with closes := (t.closes.modify k (fun c => { c with status := st })) }

theorem mem_modify_inv {α : Type} {P : α → Prop} {l : List α} (h : ∀ x ∈ l, P x) (i : ℕ) (f : α → α)
    (hf : ∀ x ∈ l, P x → P (f x)) : ∀ x ∈ l.modify i f, P x := by
  intro x hx
  obtain ⟨j, hj⟩ := List.mem_iff_getElem?.mp hx
  rw [List.getElem?_modify] at hj
  rcases hw : l[j]? with _ | u
  · rw [hw] at hj; cases hj
  · have hm := List.mem_of_getElem? hw
    rw [hw] at hj
    split_ifs at hj
    · cases hj; exact hf u hm (h u hm)
    · cases hj; exact h u hm

theorem Prim.perTrade {V : Prop} {P : Trade → Prop} (hP : TradeInv V P) {w w' : World} (h : Prim V w w')
    (hn : V → NonNeg w) (hw : ∀ t ∈ w.trades, P t) : ∀ t ∈ w'.trades, P t := by
  have happ : ∀ t : Trade, t.closes = [] → (V → 0 ≤ t.openQty) → ∀ u ∈ w.trades ++ [t], P u := by
    intro t h1 h2 u hu
    rcases List.mem_append.mp hu with hu | hu
    · exact hw u hu
    · rw [List.mem_singleton.mp hu]; exact hP.fresh t h1 h2
  cases h with
  | alloc t p hf hq hv => exact happ t hf.closes (fun v => hv v (hn v))
  | opened t p hf hv =>
    rw [(register_epics _ _ _ _).2.2]
    exact happ t hf.closes (fun v => hv v (hn v))
  | closed p i q _ _ h hv =>
    obtain ⟨t, ep, ht, -, rfl⟩ := closeOn_eq h
    intro u hu
    have hu : u ∈ w.trades.set i (t.closeFromTick ep.lastTick q) := hu
    rcases List.mem_or_eq_of_mem_set hu with hu | rfl
    · exact hw u hu
    · have hm := List.mem_of_getElem? ht
      unfold Trade.closeFromTick Trade.updateFromTick
      refine hP.close _ _ _ _ (hP.update _ _ (hw t hm)) (fun v => ?_) (fun v => hv v (hn v))
      rw [Trade.update_openedQty]; exact hn v t hm
  | update i v => exact mem_modify_inv hw i _ (fun t _ ht => hP.update _ _ ht)
  | close i v dt q hv =>
    exact mem_modify_inv hw i _ (fun t hm ht => hP.close _ _ _ _ ht (fun v => hn v t hm) hv)
  | quote i k => exact mem_modify_inv hw i _ (fun t _ ht => hP.update _ _ ht)
  | strat s f hf => exact hw
  | thread p i st =>
    have hset : ∀ (u : World) (tg : Target) (st : Status), (∀ t ∈ u.trades, P t) →
        ∀ t ∈ (u.setStatus tg st).trades, P t := by
      intro u tg st hu
      cases tg with
      | opening j => exact mem_modify_inv hu j _ (fun t _ ht => hP.status _ _ ht)
      | closing j m => exact mem_modify_inv hu j _ (fun t _ ht => hP.closeStatus _ _ _ ht)
    unfold World.runThread
    rcases w.providers[p]? with _ | pr
    · exact hw
    · dsimp only
      rcases pr.threads[i]? with _ | th
      · exact hw
      · dsimp only
        split_ifs
        · cases pr.kind
          · exact hset _ _ _ hw
          · cases st
            · exact hw
            · exact hset _ _ _ hw
        · exact hw

theorem Reachable.perTrade {P : Trade → Prop} (hP : TradeInv False P) {env : Env} {w : World}
    (h : Reachable env w) : ∀ t ∈ w.trades, P t := by
  obtain ⟨w0, h0, l, rfl⟩ := h
  refine WSteps.inv (V := False) (I := fun w => ∀ t ∈ w.trades, P t) ?_
    (runCmds_steps (fun v => v.elim) l w0 (Init.epicsOk h0) (fun v => v.elim)) ?_
  · intro a b ha hb
    cases hb with
    | prim h => exact h.perTrade hP (fun v => v.elim) ha
    | log ev => exact ha
    | epics es h => exact ha
  · intro t ht; rw [h0.trades] at ht; cases ht

theorem Spec.ValidRun.perTrade {P : Trade → Prop} (hP : TradeInv True P) {env : Env} {w : World}
    (h : Spec.ValidRun env w) : ∀ t ∈ w.trades, P t := by
  obtain ⟨w0, h0, hv, l, hl, rfl⟩ := h
  have := WSteps.inv (V := True) (I := fun w => NonNeg w ∧ ∀ t ∈ w.trades, P t) ?_
    (runCmds_steps (fun _ => hv) l w0 (Init.epicsOk h0) (fun _ => hl)) ?_
  · exact this.2
  · intro a b ha hb
    cases hb with
    | prim h => exact ⟨h.nonNeg ha.1, h.perTrade hP (fun _ => ha.1) ha.2⟩
    | log ev => exact ha
    | epics es h => exact ha
  · constructor <;> (intro t ht; rw [h0.trades] at ht; cases ht)

/-- Quantities of a trade in a valid run: nothing negative. -/
theorem Spec.ValidRun.quantities {env : Env} {w : World} (h : Spec.ValidRun env w) :
    ∀ t ∈ w.trades, 0 ≤ t.openedQty ∧ 0 ≤ t.closedQty ∧ ∀ c ∈ t.closes, 0 ≤ c.qty := by
  have hP : TradeInv True (fun t => ∀ c ∈ t.closes, 0 ≤ c.qty) := by
    refine ⟨?_, ?_, ?_, fun _ _ h => h, ?_⟩
    · intro t ht _ c hc; rw [ht] at hc; cases hc
    · intro t v ht c hc
      rw [Trade.update_closes] at hc
      exact ht c hc
    · intro t v dt q ht h0 hq c hc
      unfold Trade.close at hc
      simp only [List.mem_append, List.mem_singleton] at hc
      rcases hc with hc | rfl
      · exact ht c hc
      · exact (Trade.closeQty_bounds (h0 trivial) (q := q) (hq trivial)).1
    · intro t k st ht
      exact mem_modify_inv ht k _ (fun c _ hc => hc)
  intro t ht
  have h1 := h.perTrade hP t ht
  refine ⟨h.nonNeg t ht, ?_, h1⟩
  unfold Trade.closedQty
  apply List.sum_nonneg
  intro x hx
  obtain ⟨c, hc, rfl⟩ := List.mem_map.mp hx
  exact h1 c hc

end
end Estrade
