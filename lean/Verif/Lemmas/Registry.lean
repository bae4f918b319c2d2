import Verif.Lemmas.WorldSteps

/-!
# Registration of trades with providers and strategies
-/

set_option linter.unusedSectionVars false
set_option autoImplicit false

namespace Estrade

/-- What never changes in a trade. -/
structure Kept (t t' : Trade) : Prop where
  epic : t'.epic = t.epic
  strategy : t'.strategy = t.strategy
  dir : t'.dir = t.dir
  openQty : t'.openQty = t.openQty
  openValue : t'.openValue = t.openValue
  dt : t'.dt = t.dt
  closes : t.closes.map (fun c => (c.closeValue, c.qty, c.dt)) <+:
    t'.closes.map (fun c => (c.closeValue, c.qty, c.dt))

theorem Kept.refl (t : Trade) : Kept t t := ⟨rfl, rfl, rfl, rfl, rfl, rfl, List.prefix_refl _⟩

theorem Kept.trans {a b c : Trade} (h : Kept a b) (g : Kept b c) : Kept a c :=
  ⟨g.epic.trans h.epic, g.strategy.trans h.strategy, g.dir.trans h.dir, g.openQty.trans h.openQty,
    g.openValue.trans h.openValue, g.dt.trans h.dt, h.closes.trans g.closes⟩

/-- Every trade of the first list is kept in the second. -/
def KeptAll (l l' : List Trade) : Prop := ∀ (i : ℕ) t, l[i]? = some t → ∃ t', l'[i]? = some t' ∧ Kept t t'

theorem KeptAll.refl (l : List Trade) : KeptAll l l := fun _ t h => ⟨t, h, .refl t⟩

theorem KeptAll.trans {a b c : List Trade} (h : KeptAll a b) (g : KeptAll b c) : KeptAll a c := by
  intro i t ht
  obtain ⟨t', h1, h2⟩ := h i t ht
  obtain ⟨t'', g1, g2⟩ := g i t' h1
  exact ⟨t'', g1, h2.trans g2⟩

theorem KeptAll.modify (l : List Trade) (i : ℕ) (f : Trade → Trade) (hf : ∀ t, Kept t (f t)) :
    KeptAll l (l.modify i f) := by
  intro j t ht
  rw [List.getElem?_modify, ht]
  by_cases h : i = j
  · exact ⟨f t, by simp [h], hf t⟩
  · exact ⟨t, by simp [h], .refl t⟩

theorem KeptAll.append (l m : List Trade) : KeptAll l (l ++ m) := by
  intro i t ht
  have hlt : i < l.length := (List.getElem?_eq_some_iff.mp ht).1
  exact ⟨t, by rw [List.getElem?_append_left hlt]; exact ht, .refl t⟩

section
variable [Arith]

theorem kept_update (t : Trade) (v : ℚ) : Kept t (t.update v) := by
  unfold Trade.update Trade.updateMinMax
  dsimp only
  split_ifs <;> exact ⟨rfl, rfl, rfl, rfl, rfl, rfl, List.prefix_refl _⟩

theorem kept_close (t : Trade) (v : ℚ) (dt : DT) (q : Option ℤ) : Kept t (t.close v dt q) :=
  ⟨rfl, rfl, rfl, rfl, rfl, rfl, by unfold Trade.close; simp⟩

theorem kept_closeFromTick (t : Trade) (k : Tick) (q : Option ℤ) : Kept t (t.closeFromTick k q) :=
  (kept_update t _).trans (kept_close _ _ _ _)

/-- Nothing is registered or created. -/
structure Quiet (w w' : World) : Prop where
  prov : w'.providers.map Provider.trades = w.providers.map Provider.trades
  strat : w'.strategies.map Strategy.trades = w.strategies.map Strategy.trades
  len : w'.trades.length = w.trades.length
  kept : KeptAll w.trades w'.trades

theorem map_modify_eq {α β : Type} (g : α → β) (l : List α) (p : ℕ) (f : α → α) (hf : ∀ x, g (f x) = g x) :
    (l.modify p f).map g = l.map g := by
  apply List.ext_getElem?
  intro n
  simp only [List.getElem?_map, List.getElem?_modify]
  rcases l[n]? with _ | c
  · rfl
  · simp only [Option.map_some]; split_ifs <;> simp [hf]

theorem setStatus_quiet (w : World) (tg : Target) (st : Status) : Quiet w (w.setStatus tg st) := by
  cases tg with
  | opening i =>
    refine ⟨rfl, rfl, by simp [World.setStatus], ?_⟩
    exact KeptAll.modify _ _ _ (fun t => ⟨rfl, rfl, rfl, rfl, rfl, rfl, List.prefix_refl _⟩)
  | closing i k =>
    refine ⟨rfl, rfl, by simp [World.setStatus], ?_⟩
    refine KeptAll.modify _ _ _ (fun t => ⟨rfl, rfl, rfl, rfl, rfl, rfl, ?_⟩)
    simp only
    rw [map_modify_eq]
    intro x; rfl

/-- The three kinds of primitive steps, as far as registration is concerned. -/
theorem Prim.registry {V : Prop} {w w' : World} (h : Prim V w w') :
    Quiet w w' ∨
    (∃ t p, FreshTrade w t p ∧ t.openQty ≤ 0 ∧ w' = { w with trades := w.trades ++ [t] }) ∨
    (∃ t p, FreshTrade w t p ∧
      w' = ({ w with trades := w.trades ++ [t] } : World).register p w.trades.length t.strategy) := by
  cases h with
  | alloc t p hf hq _ => exact .inr (.inl ⟨t, p, hf, hq, rfl⟩)
  | opened t p hf _ => exact .inr (.inr ⟨t, p, hf, rfl⟩)
  | closed p i q _ _ h _ =>
    left
    obtain ⟨t, ep, ht, -, rfl⟩ := closeOn_eq h
    refine ⟨?_, rfl, by simp [World.modProvider, World.setTrade], ?_⟩
    · show (w.providers.modify p _).map Provider.trades = _
      rw [map_modify_eq]; intro x; rfl
    · show KeptAll w.trades (w.trades.set i _)
      rw [set_eq_modify _ _ _ (fun t => t.closeFromTick ep.lastTick q) ht]
      exact KeptAll.modify _ _ _ (fun t => kept_closeFromTick t _ _)
  | update i v => exact .inl ⟨rfl, rfl, by simp, KeptAll.modify _ _ _ (fun t => kept_update t v)⟩
  | close i v dt q _ => exact .inl ⟨rfl, rfl, by simp, KeptAll.modify _ _ _ (fun t => kept_close t v dt q)⟩
  | quote i k => exact .inl ⟨rfl, rfl, by simp, KeptAll.modify _ _ _ (fun t => kept_update t _)⟩
  | strat s f hf =>
    refine .inl ⟨rfl, ?_, rfl, KeptAll.refl _⟩
    show (w.strategies.modify s f).map Strategy.trades = _
    rw [map_modify_eq]; intro x; exact (hf x).1
  | thread p i st =>
    left
    unfold World.runThread
    rcases w.providers[p]? with _ | pr
    · exact ⟨rfl, rfl, rfl, KeptAll.refl _⟩
    · dsimp only
      rcases pr.threads[i]? with _ | th
      · exact ⟨rfl, rfl, rfl, KeptAll.refl _⟩
      · dsimp only
        have hm : Quiet w (w.modProvider p (fun pr => { pr with threads :=
            (pr.threads.modify i (fun th => { th with alive := false })) })) := by
          refine ⟨?_, rfl, rfl, KeptAll.refl _⟩
          show (w.providers.modify p _).map Provider.trades = _
          rw [map_modify_eq]; intro x; rfl
        have hs : ∀ tg st, Quiet w ((w.modProvider p (fun pr => { pr with threads :=
            (pr.threads.modify i (fun th => { th with alive := false })) })).setStatus tg st) := by
          intro tg st
          have := setStatus_quiet (w.modProvider p (fun pr => { pr with threads :=
            (pr.threads.modify i (fun th => { th with alive := false })) })) tg st
          exact ⟨this.prov.trans hm.prov, this.strat.trans hm.strat, this.len.trans hm.len,
            hm.kept.trans this.kept⟩
        split_ifs
        · cases pr.kind
          · exact hs _ _
          · cases st with
            | none => exact hm
            | some st => exact hs _ _
        · exact ⟨rfl, rfl, rfl, KeptAll.refl _⟩

/-- Provider of the epic of a trade. -/
def World.providerOf (w : World) (t : Trade) : Option ℕ := (w.epics[t.epic]?).map Epic.provider

/-- Consistency of the lists of trades. -/
structure BookInv (w : World) : Prop where
  provLt : ∀ (p : ℕ) pr, w.providers[p]? = some pr → ∀ i ∈ pr.trades, i < w.trades.length
  provInc : ∀ (p : ℕ) pr, w.providers[p]? = some pr → pr.trades.Pairwise (· < ·)
  stratLt : ∀ (s : ℕ) st, w.strategies[s]? = some st → ∀ i ∈ st.trades, i < w.trades.length
  stratInc : ∀ (s : ℕ) st, w.strategies[s]? = some st → st.trades.Pairwise (· < ·)
  one : ∀ (i p : ℕ) pr (p' : ℕ) pr', w.providers[p]? = some pr → i ∈ pr.trades → w.providers[p']? = some pr' → i ∈ pr'.trades →
    p = p'
  stratOf : ∀ (i : ℕ) t (s : ℕ) st, w.trades[i]? = some t → w.strategies[s]? = some st →
    (i ∈ st.trades ↔ t.strategy = some s ∧ ∃ (p : ℕ) (pr : Provider), w.providers[p]? = some pr ∧ i ∈ pr.trades)
  listed : ∀ (i : ℕ) t, w.trades[i]? = some t → 0 < t.openQty →
    ∃ (p : ℕ) (pr : Provider), w.providers[p]? = some pr ∧ i ∈ pr.trades
  stratOk : ∀ (i : ℕ) t, w.trades[i]? = some t → ∀ s, t.strategy = some s → s < w.strategies.length
  epicOk : ∀ (i : ℕ) t, w.trades[i]? = some t → ∃ ep, w.epics[t.epic]? = some ep

/-- Consistency of registration: moreover the list is that of the provider of the epic. -/
structure RegInv (w : World) : Prop extends BookInv w where
  provOf : ∀ (i : ℕ) t (p : ℕ) pr, w.trades[i]? = some t → w.providers[p]? = some pr → i ∈ pr.trades →
    w.providerOf t = some p

theorem map_getElem?_eq {α β : Type} {g : α → β} {l l' : List α} (h : l'.map g = l.map g) {i : ℕ} {x : α}
    (hx : l'[i]? = some x) : ∃ y, l[i]? = some y ∧ g y = g x := by
  have := congrArg (fun m : List β => m[i]?) h
  simp only [List.getElem?_map, hx, Option.map_some] at this
  rcases hl : l[i]? with _ | y
  · rw [hl] at this; cases this
  · rw [hl] at this; injection this with this
    exact ⟨y, rfl, this.symm⟩

theorem getElem?_length_eq {α β : Type} {l : List α} {l' : List β} (h : l'.length = l.length) {i : ℕ} {x : β}
    (hx : l'[i]? = some x) : ∃ y, l[i]? = some y := by
  have hlt : i < l'.length := (List.getElem?_eq_some_iff.mp hx).1
  exact ⟨l[i]'(by omega), List.getElem?_eq_getElem (by omega)⟩

theorem Quiet.back {w w' : World} (hq : Quiet w w') (i : ℕ) (t' : Trade) (ht' : w'.trades[i]? = some t') :
    ∃ t, w.trades[i]? = some t ∧ Kept t t' := by
  obtain ⟨t, ht⟩ := getElem?_length_eq hq.len ht'
  obtain ⟨t'', h1, h2⟩ := hq.kept i t ht
  rw [ht'] at h1; injection h1 with h1; subst h1
  exact ⟨t, ht, h2⟩

theorem BookInv.quiet {w w' : World} (hi : BookInv w) (hq : Quiet w w') (he : w'.epics.length = w.epics.length) :
    BookInv w' := by
  have back := hq.back
  have plist : ∀ (i : ℕ), (∃ (p : ℕ) (pr : Provider), w'.providers[p]? = some pr ∧ i ∈ pr.trades) ↔
      ∃ (p : ℕ) (pr : Provider), w.providers[p]? = some pr ∧ i ∈ pr.trades := by
    intro i
    constructor
    · rintro ⟨p, pr, h1, h2⟩
      obtain ⟨y, g1, g2⟩ := map_getElem?_eq hq.prov h1
      exact ⟨p, y, g1, by rw [g2]; exact h2⟩
    · rintro ⟨p, pr, h1, h2⟩
      obtain ⟨y, g1, g2⟩ := map_getElem?_eq hq.prov.symm h1
      exact ⟨p, y, g1, by rw [g2]; exact h2⟩
  refine ⟨?_, ?_, ?_, ?_, ?_, ?_, ?_, ?_, ?_⟩
  · intro p pr hp i hi'
    obtain ⟨y, g1, g2⟩ := map_getElem?_eq hq.prov hp
    rw [hq.len]; exact hi.provLt p y g1 i (by rw [g2]; exact hi')
  · intro p pr hp
    obtain ⟨y, g1, g2⟩ := map_getElem?_eq hq.prov hp
    rw [← g2]; exact hi.provInc p y g1
  · intro p pr hp i hi'
    obtain ⟨y, g1, g2⟩ := map_getElem?_eq hq.strat hp
    rw [hq.len]; exact hi.stratLt p y g1 i (by rw [g2]; exact hi')
  · intro p pr hp
    obtain ⟨y, g1, g2⟩ := map_getElem?_eq hq.strat hp
    rw [← g2]; exact hi.stratInc p y g1
  · intro i p pr p' pr' hp hm hp' hm'
    obtain ⟨y, g1, g2⟩ := map_getElem?_eq hq.prov hp
    obtain ⟨y', g1', g2'⟩ := map_getElem?_eq hq.prov hp'
    exact hi.one i p y p' y' g1 (by rw [g2]; exact hm) g1' (by rw [g2']; exact hm')
  · intro i t' s st ht' hs
    obtain ⟨t, ht, hk⟩ := back i t' ht'
    obtain ⟨y, g1, g2⟩ := map_getElem?_eq hq.strat hs
    rw [← g2, hi.stratOf i t s y ht g1, hk.strategy, plist]
  · intro i t' ht' h0
    obtain ⟨t, ht, hk⟩ := back i t' ht'
    rw [plist]
    exact hi.listed i t ht (by rw [← hk.openQty]; exact h0)
  · intro i t' ht' s hs
    obtain ⟨t, ht, hk⟩ := back i t' ht'
    have := congrArg List.length hq.strat
    rw [List.length_map, List.length_map] at this
    rw [this]
    exact hi.stratOk i t ht s (by rw [← hk.strategy]; exact hs)
  · intro i t' ht'
    obtain ⟨t, ht, hk⟩ := back i t' ht'
    obtain ⟨ep, hep⟩ := hi.epicOk i t ht
    rw [hk.epic]
    exact getElem?_length_eq he.symm hep

theorem RegInv.quiet {w w' : World} (hi : RegInv w) (hq : Quiet w w')
    (he : w'.epics.map Epic.provider = w.epics.map Epic.provider) : RegInv w' := by
  refine ⟨hi.toBookInv.quiet hq (by simpa using congrArg List.length he), ?_⟩
  intro i t' p pr ht' hp hm
  obtain ⟨t, ht, hk⟩ := hq.back i t' ht'
  obtain ⟨y, g1, g2⟩ := map_getElem?_eq hq.prov hp
  have := hi.provOf i t p y ht g1 (by rw [g2]; exact hm)
  have epr := congrArg (fun m : List ℕ => m[t.epic]?) he
  simp only [List.getElem?_map] at epr
  unfold World.providerOf at this ⊢
  rw [hk.epic, epr]; exact this

theorem look_append {l : List Trade} {t : Trade} (i : ℕ) (x : Trade) (hx : (l ++ [t])[i]? = some x) :
    l[i]? = some x ∨ (i = l.length ∧ x = t) := by
  rw [List.getElem?_append] at hx
  split_ifs at hx with h
  · exact .inl hx
  · right
    have : i - l.length < 1 := by
      simpa using (List.getElem?_eq_some_iff.mp hx).1
    have h0 : i - l.length = 0 := by omega
    rw [h0] at hx
    simp at hx
    exact ⟨by omega, hx.symm⟩

/-- A new trade of existing objects, to be listed by provider `p`. -/
structure Fitting (w : World) (t : Trade) (p : ℕ) : Prop where
  epic : ∃ ep, w.epics[t.epic]? = some ep
  prov : p < w.providers.length
  strat : ∀ s, t.strategy = some s → s < w.strategies.length

theorem FreshTrade.fitting {w : World} {t : Trade} {p : ℕ} (h : FreshTrade w t p) : Fitting w t p :=
  ⟨h.epic.imp fun _ h => h.1, h.prov, h.strat⟩

theorem BookInv.alloc {w : World} (hi : BookInv w) {t : Trade} {p : ℕ} (hf : Fitting w t p)
    (hq : t.openQty ≤ 0) : BookInv { w with trades := w.trades ++ [t] } := by
  have look := look_append (l := w.trades) (t := t)
  refine ⟨?_, hi.provInc, ?_, hi.stratInc, hi.one, ?_, ?_, ?_, ?_⟩
  · intro p pr hp i hi'
    simp only [List.length_append, List.length_singleton]
    have := hi.provLt p pr hp i hi'; omega
  · intro p pr hp i hi'
    simp only [List.length_append, List.length_singleton]
    have := hi.stratLt p pr hp i hi'; omega
  · intro i x s st hx hs
    rcases look i x hx with h | ⟨rfl, rfl⟩
    · exact hi.stratOf i x s st h hs
    · constructor
      · intro hm; exact absurd (hi.stratLt s st hs _ hm) (by omega)
      · rintro ⟨-, p, pr, hp, hm⟩; exact absurd (hi.provLt p pr hp _ hm) (by omega)
  · intro i x hx h0
    rcases look i x hx with h | ⟨rfl, rfl⟩
    · exact hi.listed i x h h0
    · omega
  · intro i x hx s hs
    rcases look i x hx with h | ⟨rfl, rfl⟩
    · exact hi.stratOk i x h s hs
    · exact hf.strat s hs
  · intro i x hx
    rcases look i x hx with h | ⟨rfl, rfl⟩
    · exact hi.epicOk i x h
    · exact hf.epic

theorem RegInv.alloc {w : World} (hi : RegInv w) {t : Trade} {p : ℕ} (hf : FreshTrade w t p)
    (hq : t.openQty ≤ 0) : RegInv { w with trades := w.trades ++ [t] } := by
  refine ⟨hi.toBookInv.alloc hf.fitting hq, ?_⟩
  intro i x p pr hx hp hm
  rcases look_append i x hx with h | ⟨rfl, rfl⟩
  · exact hi.provOf i x p pr h hp hm
  · exact absurd (hi.provLt p pr hp _ hm) (by omega)

/-- The registered world, field by field. -/
theorem register_eq (w : World) (p i : ℕ) (s : Option ℕ) :
    (w.register p i s).trades = w.trades ∧ (w.register p i s).epics = w.epics ∧
    (w.register p i s).providers = w.providers.modify p (fun pr =>
      { pr with trades := pr.trades ++ [i], threads := pr.threads ++ [⟨.opening i, true⟩] }) ∧
    (w.register p i s).strategies = (match s with
      | none => w.strategies
      | some s => w.strategies.modify s (fun st => { st with trades := st.trades ++ [i] })) ∧
    (w.register p i s).log = w.log := by
  have hmm : ∀ (l : List Provider), (l.modify p (fun pr => { pr with trades := pr.trades ++ [i] })).modify p
      (fun pr => pr.spawn (.opening i)) = l.modify p (fun pr =>
      { pr with trades := pr.trades ++ [i], threads := pr.threads ++ [⟨.opening i, true⟩] }) := by
    intro l
    apply List.ext_getElem?
    intro n
    simp only [List.getElem?_modify]
    rcases l[n]? with _ | x
    · rfl
    · by_cases h : p = n
      · simp [h, Provider.spawn]
      · simp [h]
  unfold World.register World.modProvider World.modStrategy
  cases s with
  | none => exact ⟨rfl, rfl, hmm _, rfl, rfl⟩
  | some s => exact ⟨rfl, rfl, hmm _, rfl, rfl⟩

theorem opened_provider {w : World} {t : Trade} {p : ℕ} (q : ℕ) (pr : Provider)
    (hq : (({ w with trades := w.trades ++ [t] } : World).register p w.trades.length t.strategy).providers[q]? = some pr) :
    ∃ pr0, w.providers[q]? = some pr0 ∧ pr.trades = if p = q then pr0.trades ++ [w.trades.length] else pr0.trades := by
  rw [(register_eq ({ w with trades := w.trades ++ [t] } : World) p w.trades.length t.strategy).2.2.1] at hq
  simp only [List.getElem?_modify] at hq
  rcases h0 : w.providers[q]? with _ | x
  · rw [h0] at hq; cases hq
  · rw [h0] at hq
    refine ⟨x, rfl, ?_⟩
    simp only [Option.map_eq_map, Option.map_some, Option.some.injEq] at hq
    rw [← hq]
    split_ifs <;> rfl

theorem BookInv.opened {w : World} (hi : BookInv w) {t : Trade} {p : ℕ} (hf : Fitting w t p) :
    BookInv (({ w with trades := w.trades ++ [t] } : World).register p w.trades.length t.strategy) := by
  have plook := opened_provider (w := w) (t := t) (p := p)
  obtain ⟨e1, e2, e3, e4, -⟩ := register_eq ({ w with trades := w.trades ++ [t] } : World) p
    w.trades.length t.strategy
  set w' := ({ w with trades := w.trades ++ [t] } : World).register p w.trades.length t.strategy with hw'
  simp only at e1 e2 e3 e4
  have look : ∀ (i : ℕ) x, w'.trades[i]? = some x → w.trades[i]? = some x ∨ (i = w.trades.length ∧ x = t) := by
    intro i x hx
    rw [e1] at hx
    exact look_append i x hx
  have slook : ∀ (q : ℕ) st, w'.strategies[q]? = some st → ∃ st0, w.strategies[q]? = some st0 ∧
      st.trades = if t.strategy = some q then st0.trades ++ [w.trades.length] else st0.trades := by
    intro q st hq
    rw [e4] at hq
    rcases hs : t.strategy with _ | s
    · rw [hs] at hq; exact ⟨st, hq, by simp⟩
    · rw [hs] at hq
      simp only [List.getElem?_modify] at hq
      rcases h0 : w.strategies[q]? with _ | x
      · rw [h0] at hq; cases hq
      · rw [h0] at hq
        refine ⟨x, rfl, ?_⟩
        simp only [Option.map_eq_map, Option.map_some, Option.some.injEq] at hq
        rw [← hq]
        by_cases h : s = q
        · simp [h]
        · simp [h]
  have hlen : w'.trades.length = w.trades.length + 1 := by rw [e1]; simp
  have inc : ∀ l : List ℕ, l.Pairwise (· < ·) → (∀ i ∈ l, i < w.trades.length) →
      (l ++ [w.trades.length]).Pairwise (· < ·) := by
    intro l h1 h2
    rw [List.pairwise_append]
    refine ⟨h1, by simp, ?_⟩
    intro a ha b hb
    rw [List.mem_singleton.mp hb]; exact h2 a ha
  have plt : ∀ (q : ℕ) (pr : Provider), w'.providers[q]? = some pr → ∀ i ∈ pr.trades,
      i < w.trades.length + 1 := by
    intro q pr hq i him
    obtain ⟨x, h1, h2⟩ := plook q pr hq
    rw [h2] at him
    split_ifs at him
    · rcases List.mem_append.mp him with him | him
      · have := hi.provLt q x h1 i him; omega
      · rw [List.mem_singleton.mp him]; omega
    · have := hi.provLt q x h1 i him; omega
  have pold : ∀ i, i < w.trades.length → ((∃ (q : ℕ) (pr : Provider), w'.providers[q]? = some pr ∧ i ∈ pr.trades) ↔
      ∃ (q : ℕ) (pr : Provider), w.providers[q]? = some pr ∧ i ∈ pr.trades) := by
    intro i hlt
    constructor
    · rintro ⟨q, pr, h1, h2⟩
      obtain ⟨x, g1, g2⟩ := plook q pr h1
      refine ⟨q, x, g1, ?_⟩
      rw [g2] at h2
      split_ifs at h2
      · rcases List.mem_append.mp h2 with h2 | h2
        · exact h2
        · rw [List.mem_singleton.mp h2] at hlt; omega
      · exact h2
    · rintro ⟨q, pr, h1, h2⟩
      obtain ⟨x, hx⟩ : ∃ x, w'.providers[q]? = some x := by
        apply getElem?_length_eq (l' := w.providers) _ h1
        rw [e3]; simp
      refine ⟨q, x, hx, ?_⟩
      obtain ⟨y, g1, g2⟩ := plook q x hx
      rw [h1] at g1; injection g1 with g1; subst g1
      rw [g2]
      split_ifs
      · exact List.mem_append_left _ h2
      · exact h2
  have pnew : ∃ (q : ℕ) (pr : Provider), w'.providers[q]? = some pr ∧ w.trades.length ∈ pr.trades := by
    have hp := List.getElem?_eq_getElem hf.prov
    obtain ⟨x, hx⟩ : ∃ x, w'.providers[p]? = some x := by
      apply getElem?_length_eq (l' := w.providers) _ hp
      rw [e3]; simp
    obtain ⟨y, g1, g2⟩ := plook p x hx
    exact ⟨p, x, hx, by rw [g2, if_pos rfl]; simp⟩
  refine ⟨?_, ?_, ?_, ?_, ?_, ?_, ?_, ?_, ?_⟩
  · intro q pr hq i him
    rw [hlen]; exact plt q pr hq i him
  · intro q pr hq
    obtain ⟨x, h1, h2⟩ := plook q pr hq
    rw [h2]
    split_ifs
    · exact inc _ (hi.provInc q x h1) (hi.provLt q x h1)
    · exact hi.provInc q x h1
  · intro q st hq i him
    obtain ⟨x, h1, h2⟩ := slook q st hq
    rw [h2] at him
    rw [hlen]
    split_ifs at him
    · rcases List.mem_append.mp him with him | him
      · have := hi.stratLt q x h1 i him; omega
      · rw [List.mem_singleton.mp him]; omega
    · have := hi.stratLt q x h1 i him; omega
  · intro q st hq
    obtain ⟨x, h1, h2⟩ := slook q st hq
    rw [h2]
    split_ifs
    · exact inc _ (hi.stratInc q x h1) (hi.stratLt q x h1)
    · exact hi.stratInc q x h1
  · intro i q pr q' pr' hq hm hq' hm'
    obtain ⟨y, h1, h2⟩ := plook q pr hq
    obtain ⟨y', h1', h2'⟩ := plook q' pr' hq'
    rw [h2] at hm
    rw [h2'] at hm'
    by_cases hlt : i < w.trades.length
    · have old : ∀ (a : ℕ) (z : Provider), i ∈ (if p = a then z.trades ++ [w.trades.length] else z.trades) → i ∈ z.trades := by
        intro a z hz
        split_ifs at hz
        · rcases List.mem_append.mp hz with hz | hz
          · exact hz
          · rw [List.mem_singleton.mp hz] at hlt; omega
        · exact hz
      exact hi.one i q y q' y' h1 (old q y hm) h1' (old q' y' hm')
    · have new : ∀ (a : ℕ) (z : Provider), w.providers[a]? = some z →
          i ∈ (if p = a then z.trades ++ [w.trades.length] else z.trades) → p = a := by
        intro a z ha hz
        split_ifs at hz with hpa
        · exact hpa
        · exact absurd (hi.provLt a z ha i hz) hlt
      rw [← new q y h1 hm, ← new q' y' h1' hm']
  · intro i x s st hx hs
    obtain ⟨y, h1, h2⟩ := slook s st hs
    rcases look i x hx with h | ⟨rfl, rfl⟩
    · have hlt : i < w.trades.length := (List.getElem?_eq_some_iff.mp h).1
      rw [pold i hlt, ← hi.stratOf i x s y h h1, h2]
      split_ifs
      · simp only [List.mem_append, List.mem_singleton, or_iff_left_iff_imp]; intro h; omega
      · rfl
    · rw [h2]
      constructor
      · intro him
        split_ifs at him with hsq
        · exact ⟨hsq, pnew⟩
        · have := hi.stratLt s y h1 _ him; omega
      · rintro ⟨hsq, -⟩
        rw [if_pos hsq]; simp
  · intro i x hx h0
    rcases look i x hx with h | ⟨rfl, rfl⟩
    · have hlt : i < w.trades.length := (List.getElem?_eq_some_iff.mp h).1
      rw [pold i hlt]; exact hi.listed i x h h0
    · exact pnew
  · intro i x hx s hs
    have hsl : w'.strategies.length = w.strategies.length := by
      rw [e4]; cases t.strategy <;> simp
    rw [hsl]
    rcases look i x hx with h | ⟨rfl, rfl⟩
    · exact hi.stratOk i x h s hs
    · exact hf.strat s hs
  · intro i x hx
    rw [e2]
    rcases look i x hx with h | ⟨rfl, rfl⟩
    · exact hi.epicOk i x h
    · exact hf.epic

theorem RegInv.opened {w : World} (hi : RegInv w) {t : Trade} {p : ℕ} (hf : FreshTrade w t p) :
    RegInv (({ w with trades := w.trades ++ [t] } : World).register p w.trades.length t.strategy) := by
  refine ⟨hi.toBookInv.opened hf.fitting, ?_⟩
  intro i x q pr hx hq him
  obtain ⟨y, h1, h2⟩ := opened_provider q pr hq
  obtain ⟨e1, e2, -⟩ := register_eq ({ w with trades := w.trades ++ [t] } : World) p w.trades.length t.strategy
  unfold World.providerOf
  rw [e2]
  rw [e1] at hx
  show World.providerOf w x = some q
  rcases look_append i x hx with h | ⟨rfl, rfl⟩
  · have hlt : i < w.trades.length := (List.getElem?_eq_some_iff.mp h).1
    refine hi.provOf i x q y h h1 ?_
    rw [h2] at him
    split_ifs at him
    · rcases List.mem_append.mp him with him | him
      · exact him
      · rw [List.mem_singleton.mp him] at hlt; omega
    · exact him
  · rw [h2] at him
    split_ifs at him with hpq
    · obtain ⟨ep, he1, he2⟩ := hf.epic
      unfold World.providerOf
      rw [he1, Option.map_some, he2, hpq]
    · have := hi.provLt q y h1 _ him; omega

theorem WPrim.regInv {V : Prop} {w w' : World} (hi : RegInv w) (h : WPrim V w w') : RegInv w' := by
  cases h with
  | prim h =>
    rcases h.registry with hq | ⟨t, p, hf, hq, rfl⟩ | ⟨t, p, hf, rfl⟩
    · exact hi.quiet hq (by rw [h.epics])
    · exact hi.alloc hf hq
    · exact hi.opened hf
  | log ev => exact hi.quiet ⟨rfl, rfl, rfl, KeptAll.refl _⟩ rfl
  | epics es h => exact hi.quiet ⟨rfl, rfl, rfl, KeptAll.refl _⟩ h

theorem Init.regInv {w : World} (h : w.Init) : RegInv w := by
  have hp : ∀ (p : ℕ) pr, w.providers[p]? = some pr → pr.trades = [] := by
    intro p pr hp
    obtain ⟨k, rfl⟩ := h.providers pr (List.mem_of_getElem? hp); rfl
  have hs : ∀ (p : ℕ) pr, w.strategies[p]? = some pr → pr.trades = [] := by
    intro p pr hp
    obtain ⟨k, rfl⟩ := h.strategies pr (List.mem_of_getElem? hp); rfl
  refine ⟨⟨?_, ?_, ?_, ?_, ?_, ?_, ?_, ?_, ?_⟩, ?_⟩
  · intro p pr h1 i h2; rw [hp p pr h1] at h2; cases h2
  · intro p pr h1; rw [hp p pr h1]; exact List.Pairwise.nil
  · intro p pr h1 i h2; rw [hs p pr h1] at h2; cases h2
  · intro p pr h1; rw [hs p pr h1]; exact List.Pairwise.nil
  · intro i p pr p' pr' h1 h2; rw [hp p pr h1] at h2; cases h2
  · intro i t p pr h1; rw [h.trades] at h1; cases h1
  · intro i t h1; rw [h.trades] at h1; cases h1
  · intro i t h1; rw [h.trades] at h1; cases h1
  · intro i t h1; rw [h.trades] at h1; cases h1
  · intro i t p pr h1; rw [h.trades] at h1; cases h1

theorem Reachable.regInv {env : Env} {w : World} (h : Reachable env w) : RegInv w := by
  obtain ⟨w0, h0, l, rfl⟩ := h
  exact WSteps.inv (V := False) (fun a b ha hb => hb.regInv ha)
    (runCmds_steps (fun v => v.elim) l w0 (Init.epicsOk h0) (fun v => v.elim)) (Init.regInv h0)

end
end Estrade
