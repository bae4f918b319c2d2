import Verif.World
import Verif.Lemmas.TradeLemmas
import Mathlib.Logic.Relation
import Mathlib.Data.List.Basic

/-!
# Small steps of a world

Every operation is a sequence of the primitive steps `Prim`; a run is a sequence of primitive steps, log
entries and changes of epics (`WPrim`).  Invariants are proved per primitive step.
-/

set_option linter.unusedSectionVars false
set_option autoImplicit false

namespace Estrade

section
variable [Arith]

/-- A quantity argument that is omitted or not negative. -/
def QOk (q : Option ℤ) : Prop := ∀ n, q = some n → 0 ≤ n

/-- No trade has a negative open quantity. -/
def NonNeg (w : World) : Prop := ∀ t ∈ w.trades, 0 ≤ t.openedQty

/-- A new trade object, as `epic.open_trade` creates it for epic `e`. -/
structure FreshTrade (w : World) (t : Trade) (p : ℕ) : Prop where
  epic : ∃ ep, w.epics[t.epic]? = some ep ∧ ep.provider = p
  prov : p < w.providers.length
  strat : ∀ s, t.strategy = some s → s < w.strategies.length
  closes : t.closes = []
  status : t.status = .created
  born : ∃ ep, w.epics[t.epic]? = some ep ∧ t.dt = ep.lastTick.dt ∧
    t.openValue = match t.dir with
      | .buy => ep.lastTick.ask
      | .sell => ep.lastTick.bid

/-- Primitive steps; under `V`, quantities passed by the user are valid. -/
inductive Prim (V : Prop) (w : World) : World → Prop
  | alloc (t : Trade) (p : ℕ) (hf : FreshTrade w t p) (hq : t.openQty ≤ 0)
      (hv : V → NonNeg w → 0 ≤ t.openQty) : Prim V w { w with trades := w.trades ++ [t] }
  | opened (t : Trade) (p : ℕ) (hf : FreshTrade w t p) (hv : V → NonNeg w → 0 ≤ t.openQty) :
      Prim V w (({ w with trades := w.trades ++ [t] } : World).register p w.trades.length t.strategy)
  | closed (p i : ℕ) (q : Option ℤ) (w' : World) (he : ∃ ep ∈ w.epics, ep.provider = p)
      (h : w.closeOn p i q = .ok w') (hv : V → NonNeg w → QOk q) : Prim V w w'
  | update (i : ℕ) (v : ℚ) : Prim V w { w with trades := w.trades.modify i (fun t => t.update v) }
  | close (i : ℕ) (v : ℚ) (dt : DT) (q : Option ℤ) (hv : V → QOk q) :
      Prim V w { w with trades := w.trades.modify i (fun t => t.close v dt q) }
  | quote (i : ℕ) (k : Tick) :
      Prim V w { w with trades := w.trades.modify i (fun t => t.updateFromTick k) }
  | strat (s : ℕ) (f : Strategy → Strategy) (hf : ∀ st, (f st).trades = st.trades ∧ (f st).ref = st.ref) :
      Prim V w (w.modStrategy s f)
  | thread (p i : ℕ) (st : Option Status) : Prim V w (w.runThread p i st).1

/-- Sequences of primitive steps. -/
abbrev Steps (V : Prop) : World → World → Prop := Relation.ReflTransGen (Prim V)

theorem Steps.inv {V : Prop} {I : World → Prop} (hI : ∀ w w', I w → Prim V w w' → I w') {w w' : World}
    (h : Steps V w w') (h0 : I w) : I w' := by
  induction h with
  | refl => exact h0
  | tail _ hp ih => exact hI _ _ ih hp

theorem runThread_epics (w : World) (p i : ℕ) (st : Option Status) :
    (w.runThread p i st).1.epics = w.epics ∧ (w.runThread p i st).1.log = w.log := by
  unfold World.runThread
  have hs : ∀ (u : World) (tg : Target) (st : Status), (u.setStatus tg st).epics = u.epics ∧
      (u.setStatus tg st).log = u.log := by
    intro u tg st; cases tg <;> exact ⟨rfl, rfl⟩
  rcases w.providers[p]? with _ | pr
  · exact ⟨rfl, rfl⟩
  · dsimp only
    rcases pr.threads[i]? with _ | th
    · exact ⟨rfl, rfl⟩
    · dsimp only
      split_ifs
      · cases pr.kind
        · exact hs _ _ _
        · cases st
          · exact ⟨rfl, rfl⟩
          · exact hs _ _ _
      · exact ⟨rfl, rfl⟩

theorem closeOn_eq {w w' : World} {p i : ℕ} {q : Option ℤ} (h : w.closeOn p i q = .ok w') :
    ∃ t ep, w.trades[i]? = some t ∧ w.epics[t.epic]? = some ep ∧
      w' = (w.setTrade i (t.closeFromTick ep.lastTick q)).modProvider p
        (fun pr => pr.spawn (.closing i t.closes.length)) := by
  unfold World.closeOn at h
  split at h
  · cases h
  · rename_i t ht
    split at h
    · cases h
    · rename_i ep hep
      injection h with h
      exact ⟨t, ep, ht, hep, h.symm⟩

theorem register_epics (w : World) (p i : ℕ) (s : Option ℕ) :
    (w.register p i s).epics = w.epics ∧ (w.register p i s).log = w.log ∧
      (w.register p i s).trades = w.trades := by
  unfold World.register; cases s <;> exact ⟨rfl, rfl, rfl⟩

theorem Prim.epics {V : Prop} {w w' : World} (h : Prim V w w') : w'.epics = w.epics := by
  cases h with
  | alloc => rfl
  | opened => exact (register_epics _ _ _ _).1
  | closed p i q _ _ h _ =>
    obtain ⟨t, ep, -, -, rfl⟩ := closeOn_eq h; rfl
  | update => rfl
  | close => rfl
  | quote => rfl
  | strat => rfl
  | thread p i st => exact (runThread_epics w p i st).1

theorem Prim.log {V : Prop} {w w' : World} (h : Prim V w w') : w'.log = w.log := by
  cases h with
  | alloc => rfl
  | opened => exact (register_epics _ _ _ _).2.1
  | closed p i q _ _ h _ =>
    obtain ⟨t, ep, -, -, rfl⟩ := closeOn_eq h; rfl
  | update => rfl
  | close => rfl
  | quote => rfl
  | strat => rfl
  | thread p i st => exact (runThread_epics w p i st).2

theorem Steps.epics {V : Prop} {w w' : World} (h : Steps V w w') : w'.epics = w.epics :=
  Steps.inv (I := fun u => u.epics = w.epics) (fun _ _ hu hp => hp.epics.trans hu) h rfl

theorem Steps.log {V : Prop} {w w' : World} (h : Steps V w w') : w'.log = w.log :=
  Steps.inv (I := fun u => u.log = w.log) (fun _ _ hu hp => hp.log.trans hu) h rfl

/-! ## Every operation is a sequence of primitive steps -/

/-- Non-negative open quantities survive valid primitive steps. -/
theorem Prim.nonNeg {w w' : World} (h : Prim True w w') (hn : NonNeg w) : NonNeg w' := by
  have hmod : ∀ (i : ℕ) (f : Trade → Trade), (∀ t, 0 ≤ t.openedQty → 0 ≤ (f t).openedQty) →
      NonNeg { w with trades := w.trades.modify i f } := by
    intro i f hf t ht
    simp only at ht
    obtain ⟨j, hj⟩ := List.mem_iff_getElem?.mp ht
    rw [List.getElem?_modify] at hj
    rcases hw : w.trades[j]? with _ | u
    · rw [hw] at hj; cases hj
    · have hu : 0 ≤ u.openedQty := hn u (List.mem_iff_getElem?.mpr ⟨j, hw⟩)
      rw [hw] at hj
      split_ifs at hj
      · cases hj; exact hf u hu
      · cases hj; exact hu
  have happ : ∀ t : Trade, t.closes = [] → 0 ≤ t.openQty →
      NonNeg { w with trades := w.trades ++ [t] } := by
    intro t h1 h2 u hu
    simp only [List.mem_append, List.mem_singleton] at hu
    rcases hu with hu | rfl
    · exact hn u hu
    · unfold Trade.openedQty Trade.closedQty; rw [h1]; simpa using h2
  cases h with
  | alloc t p hf hq hv => exact happ t hf.closes (hv trivial hn)
  | opened t p hf hv =>
    intro u hu
    rw [(register_epics _ _ _ _).2.2] at hu
    exact happ t hf.closes (hv trivial hn) u hu
  | closed p i q _ _ h hv =>
    obtain ⟨t, ep, ht, -, rfl⟩ := closeOn_eq h
    have hq := hv trivial hn
    intro u hu
    have hu : u ∈ w.trades.set i (t.closeFromTick ep.lastTick q) := hu
    rcases List.mem_or_eq_of_mem_set hu with hu | rfl
    · exact hn u hu
    · have ht0 := hn t (List.mem_iff_getElem?.mpr ⟨i, ht⟩)
      unfold Trade.closeFromTick
      rw [Trade.close_openedQty]
      have := Trade.closeQty_bounds (t := t.updateFromTick ep.lastTick)
        (by unfold Trade.updateFromTick; simpa using ht0) (q := q) hq
      linarith [this.2]
  | update i v => exact hmod i _ (fun t ht => by simpa using ht)
  | close i v dt q hv =>
    refine hmod i _ (fun t ht => ?_)
    rw [Trade.close_openedQty]
    have := Trade.closeQty_bounds ht (q := q) (hv trivial)
    linarith [this.2]
  | quote i k => exact hmod i _ (fun t ht => by unfold Trade.updateFromTick; simpa using ht)
  | strat s f hf => exact hn
  | thread p i st =>
    have hset : ∀ (u : World) (tg : Target) (st : Status), NonNeg u → NonNeg (u.setStatus tg st) := by
      intro u tg st hu
      cases tg with
      | opening j =>
        intro t ht
        obtain ⟨k, hk⟩ := List.mem_iff_getElem?.mp ht
        simp only [World.setStatus, List.getElem?_modify] at hk
        rcases hw : u.trades[k]? with _ | x
        · rw [hw] at hk; cases hk
        · have hx := hu x (List.mem_iff_getElem?.mpr ⟨k, hw⟩)
          rw [hw] at hk
          split_ifs at hk <;> cases hk <;> exact hx
      | closing j m =>
        intro t ht
        obtain ⟨k, hk⟩ := List.mem_iff_getElem?.mp ht
        simp only [World.setStatus, List.getElem?_modify] at hk
        rcases hw : u.trades[k]? with _ | x
        · rw [hw] at hk; cases hk
        · have hx := hu x (List.mem_iff_getElem?.mpr ⟨k, hw⟩)
          rw [hw] at hk
          have hmap : ∀ l : List TradeClose, (l.modify m (fun c => { c with status := st })).map
              TradeClose.qty = l.map TradeClose.qty := by
            intro l
            apply List.ext_getElem?
            intro n
            simp only [List.getElem?_map, List.getElem?_modify]
            rcases l[n]? with _ | c
            · rfl
            · simp only [Option.map_some]; split_ifs <;> rfl
          split_ifs at hk
          · cases hk
            unfold Trade.openedQty Trade.closedQty at hx ⊢
            rw [hmap]; exact hx
          · cases hk; exact hx
    unfold World.runThread
    rcases w.providers[p]? with _ | pr
    · exact hn
    · dsimp only
      rcases pr.threads[i]? with _ | th
      · exact hn
      · dsimp only
        split_ifs
        · cases pr.kind
          · exact hset _ _ _ hn
          · cases st
            · exact hn
            · exact hset _ _ _ hn
        · exact hn

/-- An operation whose quantities are valid. -/
def Op.Valid : Op → Prop
  | .openTrade _ _ _ q => 0 ≤ q
  | .closeTrade _ _ q => QOk q
  | .closeOpened _ q => QOk q
  | .close _ _ _ q => QOk q
  | _ => True

theorem closeTrade_steps {V : Prop} {w w' : World} {e i : ℕ} {q : Option ℤ} (hv : V → QOk q)
    (h : w.closeTrade e i q = .ok w') : Prim V w w' := by
  unfold World.closeTrade at h
  split at h
  · cases h
  · rename_i ep hep
    exact .closed ep.provider i q w' ⟨ep, List.mem_iff_getElem?.mpr ⟨e, hep⟩, rfl⟩ h (fun v _ => hv v)

theorem closeOpenedLoop_steps {V : Prop} {q : Option ℤ} (hv : V → QOk q) (l : List ℕ) (w w' : World)
    (h : closeOpenedLoop q w l = .ok w') : Steps V w w' := by
  induction l generalizing w with
  | nil => injection h with h; exact h ▸ .refl
  | cons i rest ih =>
    unfold closeOpenedLoop at h
    split at h
    · cases h
    · rename_i t ht
      split_ifs at h
      · exact ih w h
      · rcases hc : w.closeTrade t.epic i q with err | u
        · rw [hc] at h; cases h
        · rw [hc] at h
          exact .head (closeTrade_steps hv hc) (ih u h)

theorem netLoop_steps {V : Prop} {p : ℕ} (l : List ℕ) (w w' : World) (new new' : Trade)
    (he : ∃ ep ∈ w.epics, ep.provider = p) (hv : V → 0 ≤ new.openQty)
    (h : netLoop p w new l = .ok (w', new')) :
    Steps V w w' ∧ (∃ n, new' = { new with openQty := n }) ∧
      (V → NonNeg w → NonNeg w' ∧ 0 ≤ new'.openQty) := by
  induction l generalizing w new with
  | nil =>
    injection h with h; injection h with h1 h2
    subst h1; subst h2
    exact ⟨.refl, ⟨new.openQty, rfl⟩, fun v hn => ⟨hn, hv v⟩⟩
  | cons i rest ih =>
    unfold netLoop at h
    split at h
    · cases h
    · rename_i t ht
      by_cases hd : t.dir = new.dir.opposite
      · rw [if_pos hd] at h
        by_cases hs : t.strategy ≠ new.strategy
        · rw [if_pos hs] at h; exact ih w new he hv h
        · rw [if_neg hs] at h
          simp only at h
          rcases hc : w.closeOn p i (some (min t.openedQty new.openQty)) with err | u
          · rw [hc] at h; cases h
          · rw [hc] at h
            have hp : Prim V w u := .closed p i _ u he hc (fun v hn n hn' => by
              injection hn' with hn'
              have h1 := hn t (List.mem_iff_getElem?.mpr ⟨i, ht⟩)
              have h2 := hv v
              omega)
            obtain ⟨a, ⟨n, b⟩, c⟩ := ih u { new with openQty := new.openQty - min t.openedQty new.openQty }
              (by rw [hp.epics]; exact he) (fun v => by have := hv v; simp only; omega) h
            refine ⟨.head hp a, ⟨n, b⟩, fun v hn => c v ?_⟩
            have hp' : Prim True w u := .closed p i _ u he hc (fun _ hn n hn' => by
              injection hn' with hn'
              have h1 := hn t (List.mem_iff_getElem?.mpr ⟨i, ht⟩)
              have h2 := hv v
              omega)
            exact hp'.nonNeg hn
      · rw [if_neg hd] at h; exact ih w new he hv h

/-- Lengths and kinds that no primitive step changes. -/
theorem Prim.shape {V : Prop} {w w' : World} (h : Prim V w w') :
    w'.providers.length = w.providers.length ∧ w'.strategies.length = w.strategies.length ∧
      w'.providers.map Provider.kind = w.providers.map Provider.kind ∧
      w'.strategies.map Strategy.ref = w.strategies.map Strategy.ref ∧
      w.trades.length ≤ w'.trades.length := by
  have hk : ∀ (l : List Provider) (p : ℕ) (f : Provider → Provider), (∀ x, (f x).kind = x.kind) →
      (l.modify p f).map Provider.kind = l.map Provider.kind := by
    intro l p f hf
    apply List.ext_getElem?
    intro n
    simp only [List.getElem?_map, List.getElem?_modify]
    rcases l[n]? with _ | c
    · rfl
    · simp only [Option.map_some]; split_ifs <;> simp [hf]
  have hr : ∀ (l : List Strategy) (p : ℕ) (f : Strategy → Strategy), (∀ x, (f x).ref = x.ref) →
      (l.modify p f).map Strategy.ref = l.map Strategy.ref := by
    intro l p f hf
    apply List.ext_getElem?
    intro n
    simp only [List.getElem?_map, List.getElem?_modify]
    rcases l[n]? with _ | c
    · rfl
    · simp only [Option.map_some]; split_ifs <;> simp [hf]
  cases h with
  | alloc t => simp
  | opened t p =>
    unfold World.register World.modProvider World.modStrategy
    cases t.strategy with
    | none =>
      refine ⟨by simp, by simp, ?_, rfl, by simp⟩
      simp only
      rw [hk, hk] <;> intro x <;> rfl
    | some s =>
      refine ⟨by simp, by simp, ?_, ?_, by simp⟩
      · simp only
        rw [hk, hk] <;> intro x <;> rfl
      · simp only
        rw [hr]; intro x; rfl
  | closed p i q _ _ h _ =>
    obtain ⟨t, ep, -, -, rfl⟩ := closeOn_eq h
    unfold World.modProvider World.setTrade
    refine ⟨by simp, rfl, ?_, rfl, by simp⟩
    simp only
    rw [hk]; intro x; rfl
  | update i v => exact ⟨rfl, rfl, rfl, rfl, by simp⟩
  | close i v dt q => exact ⟨rfl, rfl, rfl, rfl, by simp⟩
  | quote i k => exact ⟨rfl, rfl, rfl, rfl, by simp⟩
  | strat s f hf =>
    unfold World.modStrategy
    refine ⟨rfl, by simp, rfl, ?_, le_refl _⟩
    simp only
    rw [hr]; intro x; exact (hf x).2
  | thread p i st =>
    have hset : ∀ (u : World) (tg : Target) (st : Status), (u.setStatus tg st).providers = u.providers ∧
        (u.setStatus tg st).strategies = u.strategies ∧
        u.trades.length ≤ (u.setStatus tg st).trades.length := by
      intro u tg st; cases tg <;> simp [World.setStatus]
    unfold World.runThread
    rcases w.providers[p]? with _ | pr
    · simp
    · dsimp only
      rcases pr.threads[i]? with _ | th
      · simp
      · dsimp only
        have hm : ∀ f : Provider → Provider, (∀ x, (f x).kind = x.kind) →
            (w.modProvider p f).providers.length = w.providers.length ∧
            (w.modProvider p f).providers.map Provider.kind = w.providers.map Provider.kind := by
          intro f hf
          unfold World.modProvider
          exact ⟨by simp, hk _ _ _ hf⟩
        obtain ⟨m1, m2⟩ := hm (fun pr => { pr with threads :=
          (pr.threads.modify i (fun th => { th with alive := false })) }) (fun _ => rfl)
        split_ifs
        · cases pr.kind
          · dsimp only
            rw [(hset _ _ _).1, (hset _ _ _).2.1]
            refine ⟨m1, rfl, m2, rfl, le_trans ?_ (hset _ _ _).2.2⟩
            exact le_refl _
          · cases st with
            | none => exact ⟨m1, rfl, m2, rfl, le_refl _⟩
            | some st =>
              dsimp only
              rw [(hset _ _ _).1, (hset _ _ _).2.1]
              refine ⟨m1, rfl, m2, rfl, le_trans ?_ (hset _ _ _).2.2⟩
              exact le_refl _
        · simp

theorem Steps.shape {V : Prop} {w w' : World} (h : Steps V w w') :
    w'.providers.length = w.providers.length ∧ w'.strategies.length = w.strategies.length ∧
      w'.providers.map Provider.kind = w.providers.map Provider.kind ∧
      w'.strategies.map Strategy.ref = w.strategies.map Strategy.ref ∧
      w.trades.length ≤ w'.trades.length := by
  refine Steps.inv (I := fun u => u.providers.length = w.providers.length ∧
    u.strategies.length = w.strategies.length ∧
    u.providers.map Provider.kind = w.providers.map Provider.kind ∧
    u.strategies.map Strategy.ref = w.strategies.map Strategy.ref ∧
      w.trades.length ≤ u.trades.length) ?_ h ⟨rfl, rfl, rfl, rfl, le_refl _⟩
  rintro a b ⟨h1, h2, h3, h4, h5⟩ hp
  obtain ⟨g1, g2, g3, g4, g5⟩ := hp.shape
  exact ⟨g1.trans h1, g2.trans h2, g3.trans h3, g4.trans h4, h5.trans g5⟩

theorem openFromTick_fresh {k : Tick} {e : ℕ} {d : Option Dir} {q : ℤ} {s : Option ℕ} {t : Trade}
    (h : Trade.openFromTick k e d q s = .ok t) :
    t.epic = e ∧ t.strategy = s ∧ t.openQty = q ∧ t.closes = [] ∧ t.status = .created ∧ d = some t.dir := by
  unfold Trade.openFromTick at h
  split at h
  · injection h with h; subst h; exact ⟨rfl, rfl, rfl, rfl, rfl, rfl⟩
  · injection h with h; subst h; exact ⟨rfl, rfl, rfl, rfl, rfl, rfl⟩
  · cases h

theorem openFromTick_born {k : Tick} {e : ℕ} {d : Option Dir} {q : ℤ} {s : Option ℕ} {t : Trade}
    (h : Trade.openFromTick k e d q s = .ok t) :
    t.dt = k.dt ∧ t.openValue = match t.dir with
      | .buy => k.ask
      | .sell => k.bid := by
  unfold Trade.openFromTick at h
  split at h
  · injection h with h; subst h; exact ⟨rfl, rfl⟩
  · injection h with h; subst h; exact ⟨rfl, rfl⟩
  · cases h

theorem providerOpen_steps {V : Prop} {w w' : World} {p : ℕ} {t : Trade} (hf : FreshTrade w t p)
    (hv : V → 0 ≤ t.openQty) (h : w.providerOpen p t = .ok w') : Steps V w w' := by
  unfold World.providerOpen at h
  split at h
  · cases h
  · rename_i pr hpr
    split at h
    · injection h with h
      subst h
      exact .single (.opened t p hf (fun v _ => hv v))
    · rcases hn : netLoop p w t (w.openedTrades pr) with err | ⟨u, t'⟩
      · rw [hn] at h; cases h
      · rw [hn] at h
        obtain ⟨ep, hep, hprov⟩ := hf.epic
        obtain ⟨a, ⟨n, b⟩, c⟩ := netLoop_steps (V := V) _ w u t t'
          ⟨ep, List.mem_iff_getElem?.mpr ⟨_, hep⟩, hprov⟩ hv hn
        have hf' : FreshTrade u t' p := by
          subst b
          obtain ⟨s1, s2, -⟩ := a.shape
          exact ⟨⟨ep, by rw [a.epics]; exact hep, hprov⟩, by rw [s1]; exact hf.prov,
            fun s hs => by rw [s2]; exact hf.strat s hs, hf.closes, hf.status, by rw [a.epics]; exact hf.born⟩
        have hstr : t'.strategy = t.strategy := by subst b; rfl
        have hnn : V → NonNeg u → 0 ≤ t'.openQty := by
          intro v _
          obtain ⟨_, ⟨n', b'⟩, _⟩ := netLoop_steps (V := V) _ w u t t'
            ⟨ep, List.mem_iff_getElem?.mpr ⟨_, hep⟩, hprov⟩ hv hn
          exact netLoop_nonneg (hv v) hn
        simp only [bind, Except.bind] at h
        split_ifs at h with hq
        · injection h with h
          subst h
          exact a.tail (.alloc t' p hf' hq hnn)
        · injection h with h
          subst h
          rw [← hstr]
          exact a.tail (.opened t' p hf' hnn)
where
  netLoop_nonneg {p : ℕ} {l : List ℕ} {w w' : World} {new new' : Trade} (h0 : 0 ≤ new.openQty)
      (h : netLoop p w new l = .ok (w', new')) : 0 ≤ new'.openQty := by
    induction l generalizing w new with
    | nil =>
      injection h with h; injection h with h1 h2
      subst h2; exact h0
    | cons i rest ih =>
      unfold netLoop at h
      split at h
      · cases h
      · rename_i t ht
        split_ifs at h
        · exact ih h0 h
        · simp only at h
          rcases hc : w.closeOn p i (some (min t.openedQty new.openQty)) with err | u
          · rw [hc] at h; cases h
          · rw [hc] at h
            exact ih (new := { new with openQty := new.openQty - min t.openedQty new.openQty })
              (by simp only; omega) h
        · exact ih h0 h

/-- Providers of epics exist. -/
def EpicsOk (w : World) : Prop := ∀ ep ∈ w.epics, ep.provider < w.providers.length

theorem step_steps {V : Prop} {w : World} (hw : EpicsOk w) {o : Op} (hv : V → o.Valid) :
    Steps V w (w.step o).1 := by
  have hk : ∀ r : Except PyErr World, (∀ w', r = .ok w' → Steps V w w') → Steps V w (orKeep w r).1 := by
    intro r hr
    cases r with
    | error e => exact .refl
    | ok w' => exact hr w' rfl
  cases o with
  | openTrade e s d q =>
    unfold World.step
    rcases hep : w.epics[e]? with _ | ep
    · simp only [hep]; exact .refl
    · simp only [hep]
      split_ifs with hs
      · apply hk
        intro w' h
        rcases ht : Trade.openFromTick ep.lastTick e d q s with err | t
        · rw [ht] at h; cases h
        · rw [ht] at h
          obtain ⟨f1, f2, f3, f4, f5, -⟩ := openFromTick_fresh ht
          have hs' : ∀ k, t.strategy = some k → k < w.strategies.length := by
            intro k hk'
            rw [f2] at hk'
            subst hk'
            simpa using hs
          exact providerOpen_steps (t := t) (p := ep.provider)
            ⟨⟨ep, by rw [f1]; exact hep, rfl⟩, hw ep (List.mem_iff_getElem?.mpr ⟨e, hep⟩), hs', f4, f5,
              ⟨ep, by rw [f1]; exact hep, openFromTick_born ht⟩⟩
            (fun v => by rw [f3]; exact hv v) h
      · exact .refl
  | closeTrade e t q => exact hk _ (fun w' h => .single (closeTrade_steps hv h))
  | closeOpened s q =>
    simp only [World.step]
    rcases w.strategies[s]? with _ | st
    · exact .refl
    · exact hk _ (fun w' h => closeOpenedLoop_steps hv _ _ _ h)
  | update t v => exact .single (.update t v)
  | close t v dt q => exact .single (.close t v dt q hv)
  | pause s d => exact .single (.strat s _ (fun _ => ⟨rfl, rfl⟩))
  | stop s b => exact .single (.strat s _ (fun _ => ⟨rfl, rfl⟩))
  | thread p i st => exact .single (.thread p i st)

/-- All operations a program can ever perform satisfy `P`. -/
def Prog.All (P : Op → Prop) : Prog → Prop
  | .done => True
  | .raise _ => True
  | .act o k => P o ∧ ∀ w e, (k w e).All P

theorem Prog.all_of_forall {P : Op → Prop} (h : ∀ o, P o) : ∀ p : Prog, p.All P
  | .done => trivial
  | .raise _ => trivial
  | .act o k => ⟨h o, fun w e => Prog.all_of_forall h (k w e)⟩

theorem Steps.epicsOk {V : Prop} {w w' : World} (h : Steps V w w') (hw : EpicsOk w) : EpicsOk w' := by
  intro ep hep
  rw [h.epics] at hep
  rw [h.shape.1]
  exact hw ep hep

theorem prog_steps {V : Prop} (p : Prog) (hv : V → p.All Op.Valid) (w : World) (hw : EpicsOk w) :
    Steps V w (p.run w).1 := by
  induction p generalizing w with
  | done => exact .refl
  | raise e => exact .refl
  | act o k ih =>
    have h1 : Steps V w (w.step o).1 := step_steps hw (fun v => (hv v).1)
    exact h1.trans (ih _ _ (fun v => (hv v).2 _ _) _ (h1.epicsOk hw))

/-! ## Runs -/

/-- Steps of a run: primitive steps, log entries, changes of epics that keep their providers. -/
inductive WPrim (V : Prop) (w : World) : World → Prop
  | prim {w' : World} (h : Prim V w w') : WPrim V w w'
  | log (ev : Event) : WPrim V w { w with log := w.log ++ [ev] }
  | epics (es : List Epic) (h : es.map Epic.provider = w.epics.map Epic.provider) :
      WPrim V w { w with epics := es }

/-- Sequences of steps of a run. -/
abbrev WSteps (V : Prop) : World → World → Prop := Relation.ReflTransGen (WPrim V)

theorem Steps.lift {V : Prop} {w w' : World} (h : Steps V w w') : WSteps V w w' := by
  induction h with
  | refl => exact .refl
  | tail _ hp ih => exact ih.tail (.prim hp)

theorem WPrim.epicsOk {V : Prop} {w w' : World} (h : WPrim V w w') (hw : EpicsOk w) : EpicsOk w' := by
  cases h with
  | prim h => exact Steps.epicsOk (.single h) hw
  | log ev => exact hw
  | epics es h =>
    intro ep hep
    have : ep.provider ∈ es.map Epic.provider := List.mem_map_of_mem hep
    rw [h] at this
    obtain ⟨ep', h1, h2⟩ := List.mem_map.mp this
    rw [← h2]
    exact hw ep' h1

theorem WSteps.epicsOk {V : Prop} {w w' : World} (h : WSteps V w w') (hw : EpicsOk w) : EpicsOk w' := by
  induction h with
  | refl => exact hw
  | tail _ hp ih => exact hp.epicsOk ih

theorem WSteps.inv {V : Prop} {I : World → Prop} (hI : ∀ w w', I w → WPrim V w w' → I w') {w w' : World}
    (h : WSteps V w w') (h0 : I w) : I w' := by
  induction h with
  | refl => exact h0
  | tail _ hp ih => exact hI _ _ ih hp

/-- Callbacks whose quantities are always valid. -/
def Env.Valid (env : Env) : Prop := ∀ s cb e w, (env s cb e w).All Op.Valid

theorem call_steps {V : Prop} {env : Env} (hv : V → env.Valid) {w : World} (hw : EpicsOk w) (s : ℕ)
    (cb : Cb) (e : ℕ) : WSteps V w (w.call env s cb e).1 := by
  have h1 : WPrim V w { w with log := w.log ++ [.notify s e cb] } := .log _
  exact .head h1 (prog_steps (env s cb e _) (fun v => hv v _ _ _ _) _ (h1.epicsOk hw)).lift

theorem andThen_steps {V : Prop} {w : World} {r : World × Option PyErr}
    {f : World → World × Option PyErr} (h1 : WSteps V w r.1)
    (h2 : WSteps V w r.1 → WSteps V r.1 (f r.1).1) : WSteps V w (andThen r f).1 := by
  obtain ⟨u, err⟩ := r
  cases err with
  | none => exact h1.trans (h2 h1)
  | some e => exact h1

theorem callIf_steps {V : Prop} {env : Env} (hv : V → env.Valid) {w : World} (hw : EpicsOk w) (c : Bool)
    (s : ℕ) (cb : Cb) (e : ℕ) : WSteps V w (w.callIf env c s cb e).1 := by
  unfold World.callIf
  split_ifs
  · exact call_steps hv hw s cb e
  · exact .refl

theorem notifyAll_steps {V : Prop} {env : Env} (hv : V → env.Valid) {w : World} (hw : EpicsOk w)
    (e s : ℕ) (before : Bool) : WSteps V w (w.notifyAll env e s before).1 := by
  unfold World.notifyAll
  refine andThen_steps (callIf_steps hv hw _ _ _ _) fun h1 => ?_
  have hw1 := h1.epicsOk hw
  refine andThen_steps (callIf_steps hv hw1 _ _ _ _) fun h2 => ?_
  have hw2 := h2.epicsOk hw1
  refine andThen_steps (callIf_steps hv hw2 _ _ _ _) fun h3 => ?_
  exact call_steps hv (h3.epicsOk hw2) _ _ _

theorem isActive_keeps (st : Strategy) (dt : DT) : (st.isActive dt).2.trades = st.trades ∧
    (st.isActive dt).2.ref = st.ref ∧ (st.isActive dt).2.epics = st.epics ∧
    (st.isActive dt).2.stopped = st.stopped := by
  unfold Strategy.isActive
  split_ifs
  · exact ⟨rfl, rfl, rfl, rfl⟩
  · split
    · exact ⟨rfl, rfl, rfl, rfl⟩
    · split_ifs <;> exact ⟨rfl, rfl, rfl, rfl⟩

theorem set_eq_modify {α : Type} (l : List α) (i : ℕ) (x : α) (f : α → α) (h : l[i]? = some x) :
    l.set i (f x) = l.modify i f := by
  apply List.ext_getElem?
  intro n
  rw [List.getElem?_set, List.getElem?_modify]
  by_cases hn : i = n
  · subst hn
    have hlt : i < l.length := by
      by_contra hc
      rw [List.getElem?_eq_none (by omega)] at h; cases h
    rw [if_pos rfl, if_pos hlt, h]; simp
  · simp [hn]

theorem execStrategy_steps {V : Prop} {env : Env} (hv : V → env.Valid) {w : World} (hw : EpicsOk w)
    (e s : ℕ) (before : Bool) (dt : DT) : WSteps V w (w.execStrategy env e s before dt).1 := by
  unfold World.execStrategy
  rcases hs : w.strategies[s]? with _ | st
  · exact .refl
  · simp only
    have h1 : WPrim V w { w with strategies := w.strategies.set s (st.isActive dt).2 } := by
      have : ({ w with strategies := w.strategies.set s (st.isActive dt).2 } : World) =
          w.modStrategy s (fun st => (st.isActive dt).2) := by
        unfold World.modStrategy
        rw [set_eq_modify _ _ _ (fun st => (st.isActive dt).2) hs]
      rw [this]
      exact .prim (.strat s _ (fun st => ⟨(isActive_keeps st dt).1, (isActive_keeps st dt).2.1⟩))
    split_ifs
    · exact .head h1 (notifyAll_steps hv (h1.epicsOk hw) _ _ _)
    · exact .single h1

theorem execStrategies_steps {V : Prop} {env : Env} (hv : V → env.Valid) (e : ℕ) (before : Bool) (dt : DT)
    (l : List ℕ) (w : World) (hw : EpicsOk w) :
    WSteps V w (execStrategies env e before dt w l).1 := by
  induction l generalizing w with
  | nil => exact .refl
  | cons s rest ih =>
    unfold execStrategies
    exact andThen_steps (execStrategy_steps hv hw _ _ _ _) fun h => ih _ (h.epicsOk hw)

theorem updateOpenTrades_steps {V : Prop} (w : World) (p : ℕ) (k : Tick) :
    Steps V w (w.updateOpenTrades p k) := by
  unfold World.updateOpenTrades
  rcases w.providers[p]? with _ | pr
  · exact .refl
  · simp only
    have : ∀ (l : List ℕ) (u : World), Steps V u (l.foldl
      (fun w i => { w with trades := w.trades.modify i (fun t => t.updateFromTick k) }) u) := by
      intro l
      induction l with
      | nil => intro u; exact .refl
      | cons i l ih => intro u; exact .head (.quote i k) (ih _)
    exact this _ _

theorem map_provider_set (l : List Epic) (e : ℕ) (ep ep' : Epic) (h : l[e]? = some ep)
    (hp : ep'.provider = ep.provider) : (l.set e ep').map Epic.provider = l.map Epic.provider := by
  apply List.ext_getElem?
  intro n
  rw [List.getElem?_map, List.getElem?_map, List.getElem?_set]
  by_cases hn : e = n
  · subst hn
    have hlt : e < l.length := by
      by_contra hc
      rw [List.getElem?_eq_none (by omega)] at h; cases h
    rw [if_pos rfl, if_pos hlt, h]; simp [hp]
  · rw [if_neg hn]

theorem onNewTick_steps {V : Prop} {env : Env} (hv : V → env.Valid) (w : World) (hw : EpicsOk w) (e : ℕ)
    (k : Tick) : WSteps V w (w.onNewTick env e k).1 := by
  unfold World.onNewTick
  rcases hep : w.epics[e]? with _ | ep
  · exact .refl
  · simp only
    split_ifs
    · exact .refl
    · have h1 : ∀ (x : Epic), x.provider = ep.provider → ∀ ev : Event,
          WSteps V w { w with epics := w.epics.set e x, log := w.log ++ [ev] } := by
        intro x hx ev
        exact .head (.epics (w.epics.set e x) (map_provider_set _ _ _ _ hep hx)) (.single (.log ev))
      have h2 := h1 (ep.accept { k with dt := k.dt.to ep.zone }).1 rfl
        (.accepted e { k with dt := k.dt.to ep.zone })
      split
      · exact h2
      · have h3 := h2.trans (updateOpenTrades_steps _ ep.provider { k with dt := k.dt.to ep.zone }).lift
        exact h3.trans (execStrategies_steps hv _ _ _ _ _ (WSteps.epicsOk h3 hw))

/-- A command whose quantities are valid. -/
def Cmd.Valid : Cmd → Prop
  | .op o => o.Valid
  | _ => True

theorem exec_steps {V : Prop} {env : Env} (hv : V → env.Valid) (w : World) (hw : EpicsOk w) (c : Cmd)
    (hc : V → c.Valid) : WSteps V w (w.exec env c).1 := by
  cases c with
  | tick e t => exact onNewTick_steps hv w hw e t
  | op o => exact (step_steps hw hc).lift
  | addFrameSet e ref fs =>
    simp only [World.exec, World.addFrameSet]
    rcases hep : w.epics[e]? with _ | ep
    · exact .refl
    · simp only
      rcases ha : ep.addFrameSet ref fs with err | ep'
      · exact .refl
      · refine .single (.epics _ (map_provider_set _ _ _ _ hep ?_))
        unfold Epic.addFrameSet at ha
        split at ha
        · cases ha
        · injection ha with ha; rw [← ha]
  | addStrategy e s =>
    simp only [World.exec, World.addStrategy]
    rcases hep : w.epics[e]? with _ | ep
    · exact .refl
    · rcases hs : w.strategies[s]? with _ | st
      · exact .refl
      · simp only
        split
        · exact .refl
        · refine .head (.epics _ ?_) (.single (.prim (.strat s _ ?_)))
          · rw [← set_eq_modify _ _ _ _ hep]
            exact map_provider_set _ _ _ _ hep rfl
          · exact fun _ => ⟨rfl, rfl⟩
  | addIndicator e ref ind =>
    simp only [World.exec, World.addIndicator]
    rcases hep : w.epics[e]? with _ | ep
    · exact .refl
    · simp only
      split
      · exact .refl
      · refine .single (.epics _ (map_provider_set _ _ _ _ hep rfl))

theorem runCmds_steps {V : Prop} {env : Env} (hv : V → env.Valid) (l : List Cmd) (w : World)
    (hw : EpicsOk w) (hc : V → ∀ c ∈ l, c.Valid) : WSteps V w (w.runCmds env l) := by
  induction l generalizing w with
  | nil => exact .refl
  | cons c l ih =>
    have h1 := exec_steps hv w hw c (fun v => hc v c (by simp))
    exact h1.trans (ih _ (h1.epicsOk hw) (fun v c' hc' => hc v c' (by simp [hc'])))

theorem Init.epicsOk {w : World} (h : w.Init) : EpicsOk w := by
  intro ep hep
  obtain ⟨ref, z, o, c, td, hd, p, hp, rfl⟩ := h.epics ep hep
  exact hp

theorem Reachable.steps {env : Env} {w : World} (h : Reachable env w) :
    ∃ w₀ : World, w₀.Init ∧ WSteps False w₀ w := by
  obtain ⟨w₀, h0, l, rfl⟩ := h
  exact ⟨w₀, h0, runCmds_steps (fun v => v.elim) l w₀ (Init.epicsOk h0) (fun v => v.elim)⟩

end
end Estrade
