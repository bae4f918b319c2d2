import Verif.Kwargs
import Verif.Lemmas.Opening
import Verif.Lemmas.Registry
import Verif.Lemmas.Births
import Verif.Lemmas.Threads
import Verif.Props.Links
import Verif.Props.Trades
import Verif.Demo

/-!
# C112: keyword arguments of openings and closes
-/

set_option linter.style.haveILetI false
set_option linter.unusedSectionVars false
set_option autoImplicit false

namespace Estrade

/-- Spec: names that no function on the way of an opening accepts, or that it fills in itself. -/
def Spec.strange (l : List String) : Prop := ∃ n ∈ l, n ≠ "ref" ∧ n ≠ "meta"

/-- Spec: what an opening raises. -/
def Spec.OpenRaises (kw : OpenKw) (err : Option CallErr) : Prop :=
  if "self" ∈ kw.others ∨ "epic" ∈ kw.others ∨ "tick" ∈ kw.others then err = some .type
  else if kw.direction = none then err = some (.py .key)
  else if kw.direction = some none then err = some (.py .trade)
  else
    (err = some .type ∧ (Spec.strange kw.others ∨ ∀ n, kw.quantity ≠ some (some n))) ∨
    (err = none ∧ ¬ Spec.strange kw.others ∧ ∃ n, kw.quantity = some (some n))

/-- Spec: the arguments of a close fit. -/
def Spec.CloseFits (kw : CloseKw) : Prop := ¬ Spec.strange kw.others ∧ kw.quantity ≠ .other

/-- Spec: names refused before the trade is touched. -/
def Spec.RefusedFirst (kw : CloseKw) : Prop := "self" ∈ kw.others ∨ "trade" ∈ kw.others ∨ "tick" ∈ kw.others

/-- Spec: trade `i` with status `st`. -/
def Spec.stamp (w : World) (i : ℕ) (st : Status) : World := { w with trades := w.trades.modify i (fun t => { t with status := st }) }

/-- Spec: the close number `k` of trade `i` with status `st`. -/
def Spec.stampClose (w : World) (i k : ℕ) (st : Status) : World :=
  { w with trades := w.trades.modify i (fun t => { t with closes := t.closes.modify k (fun c => { c with status := st }) }) }

theorem unknownNames_iff (l : List String) : unknownNames l = true ↔ Spec.strange l := by
  unfold unknownNames Spec.strange
  simp

section
variable [Arith]

/-- The books of the world are in order. -/
def WellFiled (w : World) : Prop := RegInv w ∧ EpicsOk w

theorem reachable_filed {env : Env} {w : World} (h : Reachable env w) : WellFiled w := ⟨h.regInv, h.epicsOk⟩

theorem step_filed {w : World} (h : WellFiled w) (o : Op) : WellFiled (w.step o).1 := by
  have hs := step_steps (V := False) h.2 (o := o) (fun v => v.elim)
  exact ⟨WSteps.inv (fun _ _ hi hp => hp.regInv hi) hs.lift h.1, hs.epicsOk h.2⟩

theorem providerOpen_ok {w : World} (h : WellFiled w) {e : ℕ} {ep : Epic} (he : w.epics[e]? = some ep) (t : Trade) :
    ∃ w', w.providerOpen ep.provider t = .ok w' := by
  have hp := h.2 ep (List.mem_of_getElem? he)
  unfold World.providerOpen
  rw [List.getElem?_eq_getElem hp]
  dsimp only
  rcases hk : w.providers[ep.provider].kind
  · dsimp only
    obtain ⟨r, hr⟩ := netLoop_ok (p := ep.provider) (w.openedTrades w.providers[ep.provider]) w t (fun i hi => by
      have hm : i ∈ w.providers[ep.provider].trades := by
        unfold World.openedTrades at hi
        exact List.mem_reverse.mp (List.mem_filter.mp hi).1
      have hlt := h.1.provLt ep.provider _ (List.getElem?_eq_getElem hp) i hm
      obtain ⟨ept, hept⟩ := h.1.epicOk i _ (List.getElem?_eq_getElem hlt)
      exact ⟨_, ept, List.getElem?_eq_getElem hlt, hept⟩)
    rw [hr]
    simp only [bind, Except.bind]
    split_ifs <;> exact ⟨_, rfl⟩
  · exact ⟨_, rfl⟩

theorem init_ok {kw : OpenKw} {e : ℕ} {d : Dir} {v : ℚ} {dt : DT} (hv : kw.openValue = some v) (hd : kw.openDt = some (.aware dt)) :
    ((kw.init e d = .error .type) ∧ (Spec.strange kw.others ∨ ∀ n, kw.quantity ≠ some (some n))) ∨
    (¬ Spec.strange kw.others ∧ ∃ n, kw.quantity = some (some n) ∧
      kw.init e d = .ok (Trade.new d n v dt e kw.curClose (kw.strategy.getD none) (kw.status.getD .created))) := by
  unfold OpenKw.init
  by_cases hu : unknownNames kw.others = true
  · rw [if_pos hu]
    exact .inl ⟨rfl, .inl ((unknownNames_iff _).mp hu)⟩
  · rw [if_neg hu, hv, hd]
    have hs : ¬ Spec.strange kw.others := fun h => hu ((unknownNames_iff _).mpr h)
    rcases hq : kw.quantity with _ | _ | n
    · exact .inl ⟨rfl, .inr (by simp)⟩
    · exact .inl ⟨rfl, .inr (by simp)⟩
    · exact .inr ⟨hs, n, rfl, rfl⟩

/-- The trade an opening with fitting arguments makes. -/
theorem openFromTick_kw {kw : OpenKw} {k : Tick} {e : ℕ} (h0 : "epic" ∉ kw.others) (h1 : "tick" ∉ kw.others) {d : Dir}
    (hd : kw.direction = some (some d)) :
    ((kw.openFromTick k e = .error .type) ∧ (Spec.strange kw.others ∨ ∀ n, kw.quantity ≠ some (some n))) ∨
    (¬ Spec.strange kw.others ∧ ∃ n t, kw.quantity = some (some n) ∧
      Trade.openFromTick k e (some d) n (kw.strategy.getD none) = .ok t ∧
      kw.openFromTick k e = .ok { t with status := kw.status.getD .created }) := by
  unfold OpenKw.openFromTick
  rw [if_neg (by simp [h0, h1]), hd]
  cases d
  · rcases init_ok (kw := { kw with openValue := some k.ask, curClose := some k.bid, openDt := some (.aware k.dt) }) (e := e) (d := .buy)
      (v := k.ask) (dt := k.dt) rfl rfl with h | ⟨h2, n, h3, h4⟩
    · exact .inl h
    · exact .inr ⟨h2, n, _, h3, rfl, h4⟩
  · rcases init_ok (kw := { kw with openValue := some k.bid, curClose := some k.ask, openDt := some (.aware k.dt) }) (e := e) (d := .sell)
      (v := k.bid) (dt := k.dt) rfl rfl with h | ⟨h2, n, h3, h4⟩
    · exact .inl h
    · exact .inr ⟨h2, n, _, h3, rfl, h4⟩

/-- C112, openings: which exception, and that nothing has changed when there is one. -/
theorem C112_open_raises (w : World) (hw : WellFiled w) (e : ℕ) (ep : Epic) (he : w.epics[e]? = some ep) (kw : OpenKw) :
    Spec.OpenRaises kw (w.openKw e kw).2 ∧ ((w.openKw e kw).2 ≠ none → (w.openKw e kw).1 = w) := by
  have key : ∀ r : World × Option CallErr, w.openKw e kw = r → Spec.OpenRaises kw r.2 → (r.2 ≠ none → r.1 = w) →
      Spec.OpenRaises kw (w.openKw e kw).2 ∧ ((w.openKw e kw).2 ≠ none → (w.openKw e kw).1 = w) := by
    intro r h; rw [h]; exact fun a b => ⟨a, b⟩
  by_cases h1 : "self" ∈ kw.others ∨ "epic" ∈ kw.others
  · refine key (w, some .type) ?_ ?_ (fun _ => rfl)
    · unfold World.openKw
      rw [he]
      dsimp only
      rw [if_pos (by simpa using h1)]
    · unfold Spec.OpenRaises
      rw [if_pos (by tauto)]
  · have hk : w.openKw e kw = (match kw.openFromTick ep.lastTick e with
      | .error err => (w, some err)
      | .ok t =>
        match w.providerOpen ep.provider t with
        | .error err => (w, some (.py err))
        | .ok w' => (w', none)) := by
      unfold World.openKw
      rw [he]
      dsimp only
      rw [if_neg (by simpa using h1)]
      rfl
    rw [not_or] at h1
    by_cases h2 : "tick" ∈ kw.others
    · have : kw.openFromTick ep.lastTick e = .error .type := by
        unfold OpenKw.openFromTick
        rw [if_pos (by simp [h2])]
      rw [this] at hk
      refine key _ hk ?_ (fun _ => rfl)
      unfold Spec.OpenRaises
      rw [if_pos (by tauto)]
    · have h3 : ¬ ("self" ∈ kw.others ∨ "epic" ∈ kw.others ∨ "tick" ∈ kw.others) := by tauto
      rcases hd : kw.direction with _ | _ | d
      · have : kw.openFromTick ep.lastTick e = .error (.py .key) := by
          unfold OpenKw.openFromTick
          rw [if_neg (by simp [h1.2, h2]), hd]
        rw [this] at hk
        refine key _ hk ?_ (fun _ => rfl)
        unfold Spec.OpenRaises
        rw [if_neg h3, if_pos hd]
      · have : kw.openFromTick ep.lastTick e = .error (.py .trade) := by
          unfold OpenKw.openFromTick
          rw [if_neg (by simp [h1.2, h2]), hd]
        rw [this] at hk
        refine key _ hk ?_ (fun _ => rfl)
        unfold Spec.OpenRaises
        rw [if_neg h3, if_neg (by simp [hd]), if_pos hd]
      · rcases openFromTick_kw (k := ep.lastTick) (e := e) h1.2 h2 hd with ⟨h5, h4⟩ | ⟨h6, n, t, h4, -, h5⟩
        · rw [h5] at hk
          refine key _ hk ?_ (fun _ => rfl)
          unfold Spec.OpenRaises
          rw [if_neg h3, if_neg (by simp [hd]), if_neg (by simp [hd])]
          exact .inl ⟨rfl, h4⟩
        · obtain ⟨w', hw'⟩ := providerOpen_ok hw he { t with status := kw.status.getD .created }
          rw [h5] at hk
          dsimp only at hk
          rw [hw'] at hk
          refine key _ hk ?_ (fun h => absurd rfl h)
          unfold Spec.OpenRaises
          rw [if_neg h3, if_neg (by simp [hd]), if_neg (by simp [hd])]
          exact .inr ⟨rfl, h6, n, h4⟩

/-- C112, openings: prices and the datetime given by the caller do not matter. -/
theorem C112_open_ignores (w : World) (e : ℕ) (kw : OpenKw) (v c : Option ℚ) (d : Option RawDT) :
    w.openKw e { kw with openValue := v, curClose := c, openDt := d } = w.openKw e kw := by
  unfold World.openKw OpenKw.openFromTick
  rcases w.epics[e]? with _ | ep
  · rfl
  · rcases kw.direction with _ | _ | _ | _ <;> rfl

/-- The status of the trade being opened plays no part in the netting. -/
theorem netLoop_status {p : ℕ} {st : Status} (l : List ℕ) : ∀ (w : World) (t : Trade),
    netLoop p w { t with status := st } l = (netLoop p w t l).map (fun r => (r.1, { r.2 with status := st })) := by
  induction l with
  | nil => intro w t; rfl
  | cons i rest ih =>
    intro w t
    unfold netLoop
    rcases w.trades[i]? with _ | x
    · rfl
    · dsimp only
      split_ifs
      · exact ih w t
      · rcases w.closeOn p i (some (min x.openedQty t.openQty)) with err | u
        · rfl
        · exact ih u { t with openQty := t.openQty - min x.openedQty t.openQty }
      · exact ih w t

theorem modify_concat {α : Type} (l : List α) (x : α) (f : α → α) : (l ++ [x]).modify l.length f = l ++ [f x] := by
  induction l with
  | nil => rfl
  | cons y l ih => simp only [List.cons_append, List.length_cons, List.modify_succ_cons, ih]

theorem providerOpen_status {w : World} {p : ℕ} {t : Trade} {st : Status} :
    w.providerOpen p { t with status := st } = (w.providerOpen p t).map (fun u =>
      { u with trades := u.trades.modify w.trades.length (fun x => { x with status := st }) }) := by
  have hap : ∀ (l : List Trade) (x : Trade), l.length = w.trades.length → (l ++ [x]).modify w.trades.length (fun x => { x with status := st }) =
      l ++ [{ x with status := st }] := by
    intro l x hl
    rw [← hl]
    exact modify_concat l x _
  have hreg : ∀ (u : World) (l : List Trade) (x : Trade) (s : Option ℕ), l.length = w.trades.length →
      World.register { u with trades := l ++ [{ x with status := st }] } p l.length s =
        (fun u : World => { u with trades := u.trades.modify w.trades.length (fun x => { x with status := st }) })
          (World.register { u with trades := l ++ [x] } p l.length s) := by
    intro u l x s hl
    rcases s with _ | s
    · unfold World.register World.modProvider
      dsimp only
      rw [hap _ _ hl]
    · unfold World.register World.modProvider World.modStrategy
      dsimp only
      rw [hap _ _ hl]
  unfold World.providerOpen
  rcases w.providers[p]? with _ | pr
  · rfl
  · dsimp only
    rcases pr.kind
    · dsimp only
      rw [netLoop_status]
      rcases hn : netLoop p w t (w.openedTrades pr) with err | r
      · rfl
      · have hl : r.1.trades.length = w.trades.length := (netLoop_length _ _ _ _ _ hn).1
        simp only [Except.map, bind, Except.bind]
        by_cases h0 : r.2.openQty ≤ 0
        · rw [if_pos h0, if_pos h0]
          dsimp only
          rw [hap _ _ hl]
        · rw [if_neg h0, if_neg h0]
          dsimp only
          rw [hreg r.1 r.1.trades r.2 t.strategy hl]
    · simp only [Except.map]
      rw [hreg w w.trades t t.strategy rfl]

/-- C112, openings: with fitting arguments the call is the opening of `World`, of the given direction, quantity and strategy, and the new trade
has the given status. -/
theorem C112_open_effect (w : World) (e : ℕ) (kw : OpenKw) (hs : ∀ s, kw.strategy = some (some s) → s < w.strategies.length)
    (h : (w.openKw e kw).2 = none) : ∃ d n, kw.direction = some (some d) ∧ kw.quantity = some (some n) ∧
      (w.openKw e kw).1 = Spec.stamp (w.step (.openTrade e (kw.strategy.getD none) (some d) n)).1 w.trades.length (kw.status.getD .created) ∧
      (w.step (.openTrade e (kw.strategy.getD none) (some d) n)).2 = none ∧
      (kw.status = none → (w.openKw e kw).1 = (w.step (.openTrade e (kw.strategy.getD none) (some d) n)).1) := by
  rcases he : w.epics[e]? with _ | ep
  · unfold World.openKw at h
    rw [he] at h; simp at h
  · unfold World.openKw at h ⊢
    rw [he] at h ⊢
    dsimp only at h ⊢
    have hst : (kw.strategy.getD none).all (fun k => decide (k < w.strategies.length)) = true := by
      rcases hk : kw.strategy with _ | _ | s
      · rfl
      · rfl
      · simp [hs s hk]
    have hstep : ∀ d n, w.step (.openTrade e (kw.strategy.getD none) d n) = orKeep w (do
          let t ← Trade.openFromTick ep.lastTick e d n (kw.strategy.getD none)
          w.providerOpen ep.provider t) := by
      intro d n
      simp only [World.step, he, hst, if_true]
    by_cases h1 : (kw.others.contains "self" || kw.others.contains "epic") = true
    · rw [if_pos h1] at h; simp at h
    · rw [if_neg h1] at h ⊢
      have h1e : "epic" ∉ kw.others := fun hm => h1 (by simp [hm])
      by_cases h2 : "tick" ∈ kw.others
      · have : kw.openFromTick ep.lastTick e = .error .type := by
          unfold OpenKw.openFromTick
          rw [if_pos (by simp [h2])]
        rw [this] at h; simp at h
      · rcases hd : kw.direction with _ | _ | d
        · have : kw.openFromTick ep.lastTick e = .error (.py .key) := by
            unfold OpenKw.openFromTick
            rw [if_neg (by simp [h1e, h2]), hd]
          rw [this] at h; simp at h
        · have : kw.openFromTick ep.lastTick e = .error (.py .trade) := by
            unfold OpenKw.openFromTick
            rw [if_neg (by simp [h1e, h2]), hd]
          rw [this] at h; simp at h
        · rcases openFromTick_kw (k := ep.lastTick) (e := e) h1e h2 hd with ⟨h5, -⟩ | ⟨h6, n, t, h4, h7, h5⟩
          · rw [h5] at h; simp at h
          · rw [h5] at h ⊢
            refine ⟨d, n, rfl, h4, ?_⟩
            rw [hstep, h7]
            have h8 : t.status = .created := by
              cases d <;> (injection h7 with h7; rw [← h7]; rfl)
            have h9 : kw.status = none → w.providerOpen ep.provider { t with status := kw.status.getD .created } = w.providerOpen ep.provider t := by
              intro hn
              rw [hn]
              show w.providerOpen ep.provider { t with status := .created } = _
              rw [← h8]
            dsimp only at h ⊢
            rw [providerOpen_status] at h h9 ⊢
            simp only [bind, Except.bind]
            rcases hp : w.providerOpen ep.provider t with err | u
            · rw [hp] at h
              cases h
            · refine ⟨rfl, rfl, fun hn => ?_⟩
              rw [hp] at h9
              have := h9 hn
              injection this

/-- C112, `strategy.open_trade`: it is `epic.open_trade` with `strategy=self`; a caller who gives a strategy gets a TypeError and nothing is opened. -/
theorem C112_strategy_open (w : World) (s e : ℕ) (kw : OpenKw) :
    (kw.strategy ≠ none → w.strategyOpenKw s e kw = (w, some .type)) ∧
    (kw.strategy = none → ∀ ep, w.epics[e]? = some ep → w.strategyOpenKw s e kw = w.openKw e { kw with strategy := some (some s) }) := by
  unfold World.strategyOpenKw
  constructor
  · intro h
    rw [if_pos]
    rcases hk : kw.strategy with _ | x
    · exact absurd hk h
    · simp
  · intro h ep he
    rw [h]
    split_ifs with h1
    · unfold World.openKw
      rw [he]
      dsimp only
      rw [if_pos (by simpa using h1)]
    · rfl

/-! ## Closes -/

theorem strange_of_mem {l : List String} {n : String} (hn : n ∈ l) (h1 : n ≠ "ref") (h2 : n ≠ "meta") : Spec.strange l := ⟨n, hn, h1, h2⟩

theorem closeKw_fits {t : Trade} {v : ℚ} {dt : DT} {kw : CloseKw} (h : Spec.CloseFits kw) :
    t.closeKw v dt kw = .ok { t with closes := t.closes ++ [⟨v, t.closeQty kw.quantity.get, dt, kw.status.getD .created⟩] } := by
  have hn : ∀ n : String, n ≠ "ref" → n ≠ "meta" → n ∉ kw.others := fun n a b hm => h.1 (strange_of_mem hm a b)
  unfold Trade.closeKw
  rw [if_neg (by simp [hn "self" (by decide) (by decide), hn "close_value" (by decide) (by decide), hn "datetime" (by decide) (by decide)]),
    if_neg h.2, if_neg (fun hu => h.1 ((unknownNames_iff _).mp hu))]

theorem closeKw_unfit {t : Trade} {v : ℚ} {dt : DT} {kw : CloseKw} (h : ¬ Spec.CloseFits kw) : t.closeKw v dt kw = .error .type := by
  unfold Trade.closeKw
  split_ifs with h1 h2 h3
  · rfl
  · rfl
  · rfl
  · exact absurd ⟨fun hs => h3 ((unknownNames_iff _).mpr hs), h2⟩ h

theorem closeKw_eq {w : World} {e i : ℕ} {ep ept : Epic} {t : Trade} (he : w.epics[e]? = some ep) (ht : w.trades[i]? = some t)
    (hept : w.epics[t.epic]? = some ept) {kw : CloseKw} (h : Spec.CloseFits kw) :
    w.closeKw e i kw = ((w.setTrade i { t.updateFromTick ept.lastTick with closes := t.closes ++
      [⟨(t.updateFromTick ept.lastTick).curClose, (t.updateFromTick ept.lastTick).closeQty kw.quantity.get, ept.lastTick.dt, kw.status.getD .created⟩] }).modProvider
        ep.provider (fun pr => pr.spawn (.closing i t.closes.length)), none) := by
  have hn : ∀ n : String, n ≠ "ref" → n ≠ "meta" → n ∉ kw.others := fun n a b hm => h.1 (strange_of_mem hm a b)
  unfold World.closeKw
  rw [he, ht]
  dsimp only
  rw [if_neg (by simp [hn "self" (by decide) (by decide), hn "trade" (by decide) (by decide)]), hept]
  dsimp only
  unfold Trade.closeFromTickKw
  rw [if_neg (by simp [hn "self" (by decide) (by decide), hn "tick" (by decide) (by decide)])]
  dsimp only
  rw [closeKw_fits h, (updateFromTick_status t ept.lastTick).2]

theorem closeKw_plain {w : World} {e i : ℕ} {ep ept : Epic} {t : Trade} (he : w.epics[e]? = some ep) (ht : w.trades[i]? = some t)
    (hept : w.epics[t.epic]? = some ept) {kw : CloseKw} (h : Spec.CloseFits kw) (hst : kw.status = none) :
    ∃ w', w.closeTrade e i kw.quantity.get = .ok w' ∧ w.closeKw e i kw = (w', none) := by
  refine ⟨_, ?_, closeKw_eq he ht hept h⟩
  simp only [World.closeTrade, World.closeOn, he, ht, hept, hst]
  unfold Trade.closeFromTick Trade.close
  dsimp only
  rw [(updateFromTick_status t ept.lastTick).2]
  rfl

/-- C112, closes: with fitting arguments the call is the close of `World`, and the new close has the given status. -/
theorem C112_close_effect (w : World) (hw : WellFiled w) (e i : ℕ) (ep : Epic) (t : Trade) (he : w.epics[e]? = some ep) (ht : w.trades[i]? = some t)
    (kw : CloseKw) (h : Spec.CloseFits kw) :
    (w.closeKw e i kw).2 = none ∧ (w.step (.closeTrade e i kw.quantity.get)).2 = none ∧
      (w.closeKw e i kw).1 = Spec.stampClose (w.step (.closeTrade e i kw.quantity.get)).1 i t.closes.length (kw.status.getD .created) := by
  obtain ⟨ept, hept⟩ := hw.1.epicOk i t ht
  have hi : i < w.trades.length := (List.getElem?_eq_some_iff.mp ht).1
  have hcl : (t.updateFromTick ept.lastTick).closes = t.closes := (updateFromTick_status t ept.lastTick).2
  have hk := closeKw_eq he ht hept h
  have hst : w.step (.closeTrade e i kw.quantity.get) = ((w.setTrade i (t.closeFromTick ept.lastTick kw.quantity.get)).modProvider
        ep.provider (fun pr => pr.spawn (.closing i t.closes.length)), none) := by
    simp only [World.step, World.closeTrade, World.closeOn, he, ht, hept]
    rfl
  rw [hk, hst]
  refine ⟨rfl, rfl, ?_⟩
  unfold World.setTrade World.modProvider Spec.stampClose
  dsimp only
  congr 1
  unfold Trade.closeFromTick Trade.close
  dsimp only
  rw [hcl]
  refine List.ext_getElem? fun j => ?_
  by_cases hj : j = i
  · subst hj
    rw [List.getElem?_set_self hi, List.getElem?_modify_eq, List.getElem?_set_self hi]
    simp only [Option.map_some, Option.map_eq_map, modify_concat]
  · simp [List.getElem?_set_ne (Ne.symm hj), Ne.symm hj]

/-- C112, closes: arguments that do not fit raise a TypeError and nothing is closed or requested. But unless the call stumbles over `self`, `trade`
or `tick`, the trade was revalued first, as by `trade.update` with the quote of its epic. -/
theorem C112_close_raises (w : World) (e i : ℕ) (ep : Epic) (t : Trade) (ept : Epic) (he : w.epics[e]? = some ep)
    (ht : w.trades[i]? = some t) (hept : w.epics[t.epic]? = some ept) (kw : CloseKw) (h : ¬ Spec.CloseFits kw) :
    (w.closeKw e i kw).2 = some .type ∧
    (Spec.RefusedFirst kw → (w.closeKw e i kw).1 = w) ∧
    (¬ Spec.RefusedFirst kw → (w.closeKw e i kw).1 = (w.step (.update i (Spec.exitQuote t.dir ept.lastTick))).1) := by
  have hi : i < w.trades.length := (List.getElem?_eq_some_iff.mp ht).1
  have key : ∀ r : World × Option CallErr, w.closeKw e i kw = r → r.2 = some .type → (Spec.RefusedFirst kw → r.1 = w) →
      (¬ Spec.RefusedFirst kw → r.1 = (w.step (.update i (Spec.exitQuote t.dir ept.lastTick))).1) →
      (w.closeKw e i kw).2 = some .type ∧ (Spec.RefusedFirst kw → (w.closeKw e i kw).1 = w) ∧
      (¬ Spec.RefusedFirst kw → (w.closeKw e i kw).1 = (w.step (.update i (Spec.exitQuote t.dir ept.lastTick))).1) := by
    intro r hr; rw [hr]; exact fun a b c => ⟨a, b, c⟩
  by_cases h1 : "self" ∈ kw.others ∨ "trade" ∈ kw.others
  · refine key (w, some .type) ?_ rfl (fun _ => rfl) (fun hn => absurd (by unfold Spec.RefusedFirst; tauto) hn)
    unfold World.closeKw
    rw [he, ht]
    dsimp only
    rw [if_pos (by simpa using h1)]
  · by_cases h2 : "tick" ∈ kw.others
    · refine key (w, some .type) ?_ rfl (fun _ => rfl) (fun hn => absurd (by unfold Spec.RefusedFirst; tauto) hn)
      unfold World.closeKw
      rw [he, ht]
      dsimp only
      rw [if_neg (by simpa using h1), hept]
      dsimp only
      unfold Trade.closeFromTickKw
      rw [if_pos (by simp [h2])]
      dsimp only
      unfold World.setTrade
      rw [(List.getElem?_eq_some_iff.mp ht).2.symm, List.set_getElem_self]
    · refine key (w.setTrade i (t.updateFromTick ept.lastTick), some .type) ?_ rfl (fun hr => ?_) (fun _ => ?_)
      · unfold World.closeKw
        rw [he, ht]
        dsimp only
        rw [if_neg (by simpa using h1), hept]
        dsimp only
        unfold Trade.closeFromTickKw
        rw [if_neg (by simp [h2]; tauto)]
        dsimp only
        rw [closeKw_unfit h]
      · unfold Spec.RefusedFirst at hr; tauto
      · unfold World.step World.setTrade
        dsimp only
        congr 1
        rw [List.modify_eq_set_getElem?]
        rw [ht, updateFromTick_eq]
        rfl

/-- C112, closes: the failing call changes nothing if the trade is valued at the last tick of its epic and its result is within its extremes. -/
theorem C112_close_atomic (w : World) (e i : ℕ) (ep : Epic) (t : Trade) (ept : Epic) (he : w.epics[e]? = some ep)
    (ht : w.trades[i]? = some t) (hept : w.epics[t.epic]? = some ept) (kw : CloseKw)
    (hfit : ¬ Spec.CloseFits kw) (hv : t.curClose = Spec.exitQuote t.dir ept.lastTick) (h1 : t.minRes ≤ t.result) (h2 : t.result ≤ t.maxRes) :
    (w.closeKw e i kw).1 = w := by
  obtain ⟨-, a, b⟩ := C112_close_raises w e i ep t ept he ht hept kw hfit
  by_cases hr : Spec.RefusedFirst kw
  · exact a hr
  · rw [b hr]
    have hu : t.update (Spec.exitQuote t.dir ept.lastTick) = t := by
      rw [← hv]
      unfold Trade.update Trade.updateMinMax
      have e1 : ({ t with curClose := t.curClose } : Trade) = t := rfl
      rw [e1]
      dsimp only
      rw [if_neg (not_lt.mpr h2), if_neg (not_lt.mpr h1)]
      simp
    unfold World.step
    dsimp only
    have : w.trades.modify i (fun x => x.update (Spec.exitQuote t.dir ept.lastTick)) = w.trades := by
      rw [List.modify_eq_set_getElem?, ht]
      show w.trades.set i (t.update _) = _
      rw [hu, (List.getElem?_eq_some_iff.mp ht).2.symm, List.set_getElem_self]
    rw [this]

/-- Spec: the open trades of a list, in its order. -/
def Spec.openOf (w : World) (l : List ℕ) : List ℕ := l.filter fun i => match w.trades[i]? with
  | none => true
  | some t => decide (t.openQty - (t.closes.map TradeClose.qty).sum ≠ 0)

theorem closeOpenedKw_first {kw : CloseKw} (h : ¬ Spec.CloseFits kw) (w : World) : ∀ l : List ℕ,
    (∀ i ∈ l, ∃ t ep, w.trades[i]? = some t ∧ w.epics[t.epic]? = some ep) →
    (Spec.openOf w l = [] → closeOpenedKwLoop kw w l = (w, none)) ∧
    (∀ i rest, Spec.openOf w l = i :: rest → ∃ t, w.trades[i]? = some t ∧ closeOpenedKwLoop kw w l = w.closeKw t.epic i kw) := by
  intro l
  induction l with
  | nil => intro _; exact ⟨fun _ => rfl, fun i rest hr => by simp [Spec.openOf] at hr⟩
  | cons j l ih =>
    intro hl
    obtain ⟨t, ep, ht, hep⟩ := hl j (by simp)
    have ih' := ih (fun i hi => hl i (List.mem_cons_of_mem _ hi))
    by_cases hc : t.closed = true
    · have e1 : Spec.openOf w (j :: l) = Spec.openOf w l := by
        unfold Spec.openOf
        rw [List.filter_cons, if_neg]
        rw [ht]
        unfold Trade.closed Trade.openedQty Trade.closedQty at hc
        simpa using hc
      have e2 : closeOpenedKwLoop kw w (j :: l) = closeOpenedKwLoop kw w l := by
        simp only [closeOpenedKwLoop, ht, hc, if_true]
      rw [e1, e2]
      exact ih'
    · have e1 : Spec.openOf w (j :: l) = j :: Spec.openOf w l := by
        unfold Spec.openOf
        rw [List.filter_cons, if_pos]
        rw [ht]
        unfold Trade.closed Trade.openedQty Trade.closedQty at hc
        simpa using hc
      refine ⟨fun hn => (by rw [e1] at hn; cases hn), fun i rest hr => ?_⟩
      rw [e1] at hr
      injection hr with hi _
      subst hi
      refine ⟨t, ht, ?_⟩
      have hb := (C112_close_raises w t.epic j ep t ep hep ht hep kw h).1
      unfold closeOpenedKwLoop
      rw [ht]
      dsimp only
      rw [if_neg hc, hb]
      dsimp only
      rw [← hb]

/-- C112, `close_opened_trades` with arguments that do not fit: without open trades nothing happens, not even an exception (unless the name is
`self`); otherwise the call fails at the open trade opened last, and no other trade is touched. -/
theorem C112_close_opened (w : World) (hw : WellFiled w) (s : ℕ) (st : Strategy) (hs : w.strategies[s]? = some st) (kw : CloseKw)
    (h : ¬ Spec.CloseFits kw) :
    ("self" ∈ kw.others → w.closeOpenedKw s kw = (w, some .type)) ∧
    ("self" ∉ kw.others → Spec.openOf w st.trades.reverse = [] → w.closeOpenedKw s kw = (w, none)) ∧
    ("self" ∉ kw.others → ∀ i rest, Spec.openOf w st.trades.reverse = i :: rest → (w.closeOpenedKw s kw).2 = some .type ∧
      (∀ j, j ≠ i → (w.closeOpenedKw s kw).1.trades[j]? = w.trades[j]?) ∧
      ∃ t, w.trades[i]? = some t ∧ w.closeOpenedKw s kw = w.closeKw t.epic i kw) := by
  have hk : w.closeOpenedKw s kw = if kw.others.contains "self" then (w, some .type) else closeOpenedKwLoop kw w st.trades.reverse := by
    unfold World.closeOpenedKw
    rw [hs]
  have hall : ∀ i ∈ st.trades.reverse, ∃ t ep, w.trades[i]? = some t ∧ w.epics[t.epic]? = some ep := by
    intro i hi
    have hlt := hw.1.stratLt s st hs i (List.mem_reverse.mp hi)
    obtain ⟨ep, hep⟩ := hw.1.epicOk i _ (List.getElem?_eq_getElem hlt)
    exact ⟨_, ep, List.getElem?_eq_getElem hlt, hep⟩
  obtain ⟨a, b⟩ := closeOpenedKw_first h w _ hall
  refine ⟨fun hm => ?_, fun hm h0 => ?_, fun hm i rest hr => ?_⟩
  · rw [hk, if_pos (by simpa using hm)]
  · rw [hk, if_neg (by simpa using hm)]
    exact a h0
  · rw [hk, if_neg (by simpa using hm)]
    obtain ⟨t, ht, he⟩ := b i rest hr
    obtain ⟨ep, hep⟩ := hw.1.epicOk i t ht
    obtain ⟨c1, c2, c3⟩ := C112_close_raises w t.epic i ep t ep hep ht hep kw h
    rw [he]
    refine ⟨c1, fun j hj => ?_, t, ht, rfl⟩
    by_cases hf : Spec.RefusedFirst kw
    · rw [c2 hf]
    · rw [c3 hf]
      show (w.trades.modify i _)[j]? = _
      simp [Ne.symm hj]

theorem closeOpenedKw_plain {kw : CloseKw} (h : Spec.CloseFits kw) (hst : kw.status = none) : ∀ (l : List ℕ) (w : World),
    (∀ i ∈ l, ∃ t ep, w.trades[i]? = some t ∧ w.epics[t.epic]? = some ep) →
    ∃ w', closeOpenedLoop kw.quantity.get w l = .ok w' ∧ closeOpenedKwLoop kw w l = (w', none) := by
  intro l
  induction l with
  | nil => intro w _; exact ⟨w, rfl, rfl⟩
  | cons i l ih =>
    intro w hl
    obtain ⟨t, ep, ht, hep⟩ := hl i (by simp)
    have hr := fun j (hj : j ∈ l) => hl j (List.mem_cons_of_mem _ hj)
    unfold closeOpenedLoop closeOpenedKwLoop
    rw [ht]
    dsimp only
    by_cases hc : t.closed = true
    · rw [if_pos hc, if_pos hc]
      exact ih w hr
    · rw [if_neg hc, if_neg hc]
      obtain ⟨u, hu, hk⟩ := closeKw_plain hep ht hep h hst
      rw [hu, hk]
      have hcl : w.closeOn ep.provider i kw.quantity.get = .ok u := by
        unfold World.closeTrade at hu
        rwa [hep] at hu
      obtain ⟨t', ep', c1, c2, c3, c4, -, c6⟩ := closeOn_get hcl
      refine ih u (fun j hj => ?_)
      obtain ⟨x, epx, hx, hex⟩ := hr j hj
      by_cases hji : j = i
      · subst hji
        rw [ht] at c1; injection c1 with c1; subst c1
        exact ⟨_, ep', c3, by rw [c6, (kept_closeFromTick t _ _).epic]; exact c2⟩
      · exact ⟨x, epx, by rw [c4 j hji]; exact hx, by rw [c6]; exact hex⟩

/-- C112, `close_opened_trades` with fitting arguments is that of `World`. -/
theorem C112_close_opened_fits (w : World) (hw : WellFiled w) (s : ℕ) (st : Strategy) (hs : w.strategies[s]? = some st) (kw : CloseKw)
    (h : Spec.CloseFits kw) (hst : kw.status = none) :
    (w.closeOpenedKw s kw).2 = none ∧ (w.closeOpenedKw s kw).1 = (w.step (.closeOpened s kw.quantity.get)).1 := by
  obtain ⟨w', h1, h2⟩ := closeOpenedKw_plain h hst st.trades.reverse w (fun i hi => by
    have hlt := hw.1.stratLt s st hs i (List.mem_reverse.mp hi)
    obtain ⟨ep, hep⟩ := hw.1.epicOk i _ (List.getElem?_eq_getElem hlt)
    exact ⟨_, ep, List.getElem?_eq_getElem hlt, hep⟩)
  have hself : "self" ∉ kw.others := fun hm => h.1 (strange_of_mem hm (by decide) (by decide))
  have hk : w.closeOpenedKw s kw = closeOpenedKwLoop kw w st.trades.reverse := by
    unfold World.closeOpenedKw
    rw [hs]
    dsimp only
    rw [if_neg (by simpa using hself)]
  rw [hk, h2]
  refine ⟨rfl, ?_⟩
  simp only [World.step, hs, h1, orKeep]

/-! ## Programs -/

/-- Spec: calls without `status`, with strategies that exist (`n` of them). -/
def Spec.PlainCall (n : ℕ) : KwOp → Prop
  | .op _ => True
  | .openTrade _ kw => kw.status = none ∧ ∀ s, kw.strategy = some (some s) → s < n
  | .strategyOpen s _ kw => kw.status = none ∧ s < n
  | .closeTrade _ _ kw => kw.status = none
  | .closeOpened _ kw => kw.status = none

/-- Spec: all calls of a program are such calls. -/
def KwProg.All (P : KwOp → Prop) : KwProg → Prop
  | .done => True
  | .raise _ => True
  | .act o k => P o ∧ ∀ w err, (k w err).All P

/-- Nothing, or one operation. -/
def World.stepOf (w : World) : Option Op → World
  | none => w
  | some o => (w.step o).1

theorem openKw_step {w : World} (hw : WellFiled w) {e : ℕ} {kw : OpenKw} (h1 : kw.status = none)
    (h2 : ∀ s, kw.strategy = some (some s) → s < w.strategies.length) : ∃ o, (w.openKw e kw).1 = w.stepOf o := by
  rcases he : w.epics[e]? with _ | ep
  · refine ⟨none, ?_⟩
    unfold World.openKw
    rw [he]; rfl
  · by_cases hr : (w.openKw e kw).2 = none
    · obtain ⟨d, n, -, -, -, -, h3⟩ := C112_open_effect w e kw h2 hr
      exact ⟨some (.openTrade e (kw.strategy.getD none) (some d) n), h3 h1⟩
    · exact ⟨none, (C112_open_raises w hw e ep he kw).2 hr⟩

theorem closeKw_step {w : World} (hw : WellFiled w) {e i : ℕ} {kw : CloseKw} (h1 : kw.status = none) : ∃ o, (w.closeKw e i kw).1 = w.stepOf o := by
  rcases he : w.epics[e]? with _ | ep
  · refine ⟨none, ?_⟩
    unfold World.closeKw
    rw [he]; rfl
  · rcases ht : w.trades[i]? with _ | t
    · refine ⟨none, ?_⟩
      unfold World.closeKw
      rw [he, ht]; rfl
    · obtain ⟨ept, hept⟩ := hw.1.epicOk i t ht
      by_cases hf : Spec.CloseFits kw
      · obtain ⟨w', h2, h3⟩ := closeKw_plain he ht hept hf h1
        refine ⟨some (.closeTrade e i kw.quantity.get), ?_⟩
        simp only [World.stepOf, World.step, h2, h3, orKeep]
      · obtain ⟨-, h2, h3⟩ := C112_close_raises w e i ep t ept he ht hept kw hf
        by_cases hr : Spec.RefusedFirst kw
        · exact ⟨none, h2 hr⟩
        · exact ⟨some (.update i (Spec.exitQuote t.dir ept.lastTick)), h3 hr⟩

/-- C112: whatever a call does to the world, with arguments that fit or not, is nothing or the effect of one operation of `World`. -/
theorem C112_step (w : World) (hw : WellFiled w) (o : KwOp) (ho : Spec.PlainCall w.strategies.length o) : ∃ p, (w.kwStep o).1 = w.stepOf p := by
  cases o with
  | op o => exact ⟨some o, rfl⟩
  | openTrade e kw => exact openKw_step hw ho.1 ho.2
  | strategyOpen s e kw =>
    show ∃ p, (w.strategyOpenKw s e kw).1 = w.stepOf p
    unfold World.strategyOpenKw
    split_ifs
    · exact ⟨none, rfl⟩
    · refine openKw_step hw ho.1 (fun s' hs' => ?_)
      injection hs' with hs'; injection hs' with hs'
      subst hs'
      exact ho.2
  | closeTrade e i kw => exact closeKw_step hw ho
  | closeOpened s kw =>
    show ∃ p, (w.closeOpenedKw s kw).1 = w.stepOf p
    rcases hs : w.strategies[s]? with _ | st
    · refine ⟨none, ?_⟩
      unfold World.closeOpenedKw
      rw [hs]; rfl
    · by_cases hf : Spec.CloseFits kw
      · exact ⟨some (.closeOpened s kw.quantity.get), (C112_close_opened_fits w hw s st hs kw hf ho).2⟩
      · obtain ⟨h1, h2, h3⟩ := C112_close_opened w hw s st hs kw hf
        by_cases hm : "self" ∈ kw.others
        · exact ⟨none, by rw [h1 hm]; rfl⟩
        · rcases hr : Spec.openOf w st.trades.reverse with _ | ⟨i, rest⟩
          · exact ⟨none, by rw [h2 hm hr]; rfl⟩
          · obtain ⟨-, -, t, -, h4⟩ := h3 hm i rest hr
            rw [h4]
            exact closeKw_step hw ho

theorem step_strategies_length (w : World) (o : Op) : (w.step o).1.strategies.length = w.strategies.length := by
  have h := congrArg (fun p => p.2.length) (step_links w o)
  simpa [links] using h

/-- C112: whatever a program does with such calls, some program of `World` does, and it raises an exception if and only if that one does. -/
theorem C112_program (n : ℕ) (p : KwProg) : ∀ w : World, WellFiled w → w.strategies.length = n → p.All (Spec.PlainCall n) →
    ∃ q : Prog, (q.run w).1 = (p.run w).1 ∧ ((q.run w).2 = none ↔ (p.run w).2 = none) := by
  induction p with
  | done => intro w _ _ _; exact ⟨.done, rfl, by simp [Prog.run, KwProg.run]⟩
  | raise e =>
    intro w _ _ _
    exact ⟨.raise .value, rfl, by simp [Prog.run, KwProg.run]⟩
  | act o k ih =>
    intro w hw hn hp
    obtain ⟨x, hx⟩ := C112_step w hw o (hn ▸ hp.1)
    rcases x with _ | x
    · obtain ⟨q, h1, h2⟩ := ih (w.kwStep o).1 (w.kwStep o).2 (w.kwStep o).1 (by rw [hx]; exact hw) (by rw [hx]; exact hn) (hp.2 _ _)
      rw [hx] at h1 h2
      refine ⟨q, ?_, ?_⟩
      · refine h1.trans ?_
        show _ = ((k (w.kwStep o).1 (w.kwStep o).2).run (w.kwStep o).1).1
        rw [hx]
      · refine h2.trans ?_
        show _ ↔ ((k (w.kwStep o).1 (w.kwStep o).2).run (w.kwStep o).1).2 = none
        rw [hx]
    · obtain ⟨q, h1, h2⟩ := ih (w.kwStep o).1 (w.kwStep o).2 (w.kwStep o).1 (by rw [hx]; exact step_filed hw x)
        (by rw [hx]; exact (step_strategies_length w x).trans hn) (hp.2 _ _)
      refine ⟨.act x (fun _ _ => q), ?_, ?_⟩
      · show (q.run (w.step x).1).1 = _
        rw [show (w.step x).1 = (w.kwStep o).1 from hx.symm, h1]
        rfl
      · show (q.run (w.step x).1).2 = none ↔ _
        rw [show (w.step x).1 = (w.kwStep o).1 from hx.symm, h2]
        exact Iff.rfl

/-- C112: callbacks that make such calls have the same effects as callbacks of `World`: the theorems about all callbacks are about them too. -/
theorem C112_callbacks (n : ℕ) (kenv : ℕ → Cb → ℕ → World → KwProg) (hk : ∀ s cb e w, (kenv s cb e w).All (Spec.PlainCall n)) :
    ∃ env : Env, ∀ s cb e w, WellFiled w → w.strategies.length = n →
      ((env s cb e w).run w).1 = ((kenv s cb e w).run w).1 ∧
      (((env s cb e w).run w).2 = none ↔ ((kenv s cb e w).run w).2 = none) := by
  classical
  refine ⟨fun s cb e w => if h : WellFiled w ∧ w.strategies.length = n then
    (C112_program n (kenv s cb e w) w h.1 h.2 (hk s cb e w)).choose else .done, fun s cb e w h1 h2 => ?_⟩
  simp only
  rw [dif_pos ⟨h1, h2⟩]
  exact (C112_program n (kenv s cb e w) w h1 h2 (hk s cb e w)).choose_spec

end

/-! ## Failing calls change nothing: false -/

/-- Spec: a call that raises leaves everything as it was. -/
def Spec.FailedCallsChangeNothing [Arith] : Prop :=
  ∀ (env : Env) (w : World), Reachable env w → ∀ o : KwOp, (w.kwStep o).2 ≠ none → (w.kwStep o).1 = w

/-- Two units bought at 12 when the bid was 10, then `trade.update(9)`. -/
def Demo.marked [Arith] : World := Demo.world.runCmds Demo.quiet
  [.tick 0 (Demo.tk 480 10 12), .op (.openTrade 0 (some 0) (some .buy) 2), .op (.update 0 9)]

/-- C112: a close with a name that nobody knows raises, and yet the trade is now valued at 10. -/
theorem C112_atomic_false : letI := Arith.exact
    ¬ Spec.FailedCallsChangeNothing := by
  letI := Arith.exact
  intro h
  have h1 := h Demo.quiet Demo.marked (Demo.reachable _ _) (.closeTrade 0 0 { others := ["price"] }) (by decide +kernel)
  have h2 : ((Demo.marked.kwStep (.closeTrade 0 0 { others := ["price"] })).1.trades.map Trade.curClose) = [10] := by decide +kernel
  have h3 : Demo.marked.trades.map Trade.curClose = [9] := by decide +kernel
  rw [h1, h3] at h2
  exact absurd h2 (by decide +kernel)

/-- Cases for `C112_open_raises`: no direction, no quantity, an invented name, a word for the quantity, and a direction that is none together with
an invented name; nothing is opened. -/
example : letI := Arith.exact
    [({ } : OpenKw), { direction := some (some .buy) }, { direction := some (some .buy), quantity := some (some 1), others := ["price"] },
      { direction := some (some .sell), quantity := some none }, { direction := some none, others := ["price"] },
      { others := ["epic"] }].map (fun kw => ((Demo.marked.openKw 0 kw).2, (Demo.marked.openKw 0 kw).1.trades.length)) =
    [(some (.py .key), 1), (some .type, 1), (some .type, 1), (some .type, 1), (some (.py .trade), 1), (some .type, 1)] := by
  decide +kernel

/-- Case for `C112_open_effect`, `C112_open_ignores`: the caller's price 5 is ignored, the trade opens at 12 with the status given. -/
example : letI := Arith.exact
    let kw : OpenKw := ⟨some (some .buy), some (some 3), none, some 5, some 6, none, some .pending, ["ref"]⟩
    let r := Demo.marked.openKw 0 kw
    r.2 = none ∧ r.1.trades.map (fun t => (t.openValue, t.curClose, t.openQty, t.status)) =
      [(12, 9, 2, .created), (12, 10, 3, .pending)] := by
  decide +kernel

/-- Case for `C112_strategy_open`. -/
example : letI := Arith.exact
    (Demo.marked.strategyOpenKw 0 0 { direction := some (some .buy), quantity := some (some 3), strategy := some none }).2 = some .type ∧
    ((Demo.marked.strategyOpenKw 0 0 { direction := some (some .buy), quantity := some (some 3) }).1.trades.map Trade.strategy) =
      [some 0, some 0] := by
  decide +kernel

/-- A close in `Demo.marked`: what it raises, the value of the trade, and the quantities and statuses of its closes. -/
def Demo.closeWith [Arith] (kw : CloseKw) : Option CallErr × List (ℚ × List ℤ × List Status) :=
  ((Demo.marked.closeKw 0 0 kw).2,
    (Demo.marked.closeKw 0 0 kw).1.trades.map (fun t => (t.curClose, t.closes.map TradeClose.qty, t.closes.map TradeClose.status)))

/-- Cases for `C112_close_raises`, `C112_close_effect`: refused before or after the trade is revalued, and a close of one unit with a status. -/
example : letI := Arith.exact
    Demo.closeWith { others := ["tick"] } = (some .type, [(9, [], [])]) ∧
    Demo.closeWith { others := ["close_value"] } = (some .type, [(10, [], [])]) ∧
    Demo.closeWith { quantity := .other } = (some .type, [(10, [], [])]) ∧
    Demo.closeWith { quantity := .int 1, status := some .pending, others := ["meta"] } = (none, [(10, [1], [.pending])]) := by
  refine ⟨?_, ?_, ?_, ?_⟩ <;> decide +kernel

/-- Case for `C112_close_atomic`: after the tick the trade is valued at the bid, and the failing close changes nothing. -/
example : letI := Arith.exact
    let w := Demo.world.runCmds Demo.quiet [.tick 0 (Demo.tk 480 10 12), .op (.openTrade 0 (some 0) (some .buy) 2)]
    (w.closeKw 0 0 { others := ["price"] }).2 = some .type ∧ (w.closeKw 0 0 { others := ["price"] }).1.trades = w.trades ∧
      w.trades.map (fun t => (t.curClose, t.minRes, t.result, t.maxRes)) = [(10, -4, -4, -4)] := by
  decide +kernel

/-- Cases for `C112_close_opened`, `C112_close_opened_fits`: strategy 0 has an open trade, strategy 1 has none. -/
example : letI := Arith.exact
    (Demo.marked.closeOpenedKw 0 { others := ["price"] }).2 = some .type ∧ (Demo.marked.closeOpenedKw 1 { others := ["price"] }).2 = none ∧
    (Demo.marked.closeOpenedKw 1 { others := ["self"] }).2 = some .type ∧
    ((Demo.marked.closeOpenedKw 0 { quantity := .int 1 }).1.trades.map (fun t => t.closes.map TradeClose.qty)) = [[1]] := by
  decide +kernel

/-- A callback that catches the failure of a close with an invented name and closes properly. -/
def Demo.clumsy : KwProg := .act (.closeTrade 0 0 { others := ["price"] }) fun _ err =>
  if err = none then .done else .act (.closeTrade 0 0 { }) fun _ _ => .raise .type

/-- Case for `C112_step`, `C112_program`, `C112_callbacks`. -/
example : letI := Arith.exact
    Demo.clumsy.All (Spec.PlainCall 2) ∧ (Demo.clumsy.run Demo.marked).2 = some .type ∧
      ((Demo.clumsy.run Demo.marked).1.trades.map (fun t => (t.curClose, t.closes.map TradeClose.qty))) = [(10, [2])] := by
  refine ⟨⟨rfl, fun w err => ?_⟩, by decide +kernel, by decide +kernel⟩
  dsimp only
  split_ifs
  · trivial
  · exact ⟨rfl, fun _ _ => trivial⟩

end Estrade
