import Verif.Lemmas.Blank
import Verif.Lemmas.Netting

/-!
# Two worlds that look the same to one strategy

`Rel s L L' w w'`: the trades `L` of strategy `s` in `w` and `L'` in `w'` agree one by one (up to statuses), epics and
classes of providers agree; everything else may differ.  Operations of `s` preserve it, operations of others too.
-/

set_option linter.unusedSectionVars false
set_option autoImplicit false

namespace Estrade

section
variable [Arith]

theorem blank_same {t t' : Trade} (h : t.blank = t'.blank) : t.epic = t'.epic ∧ t.dir = t'.dir ∧ t.strategy = t'.strategy ∧
    t.closed = t'.closed ∧ t.openedQty = t'.openedQty :=
  ⟨show t.blank.epic = t'.blank.epic by rw [h], show t.blank.dir = t'.blank.dir by rw [h],
    show t.blank.strategy = t'.blank.strategy by rw [h], by rw [← Trade.blank_closed, h, Trade.blank_closed],
    by rw [← Trade.blank_openedQty, h, Trade.blank_openedQty]⟩

/-- The trades `i` of `w` and `j` of `w'` agree up to statuses. -/
def Twin (w w' : World) (i j : ℕ) : Prop := ∃ t t', w.trades[i]? = some t ∧ w'.trades[j]? = some t' ∧ t.blank = t'.blank

/-- `i` and `j` have the same position. -/
def Pair (L L' : List ℕ) (i j : ℕ) : Prop := ∃ n : ℕ, L[n]? = some i ∧ L'[n]? = some j

structure Rel (s : ℕ) (L L' : List ℕ) (w w' : World) : Prop where
  epics : w.epics = w'.epics
  kinds : w.providers.map Provider.kind = w'.providers.map Provider.kind
  refs : w.strategies.map Strategy.ref = w'.strategies.map Strategy.ref
  own : ∃ st st', w.strategies[s]? = some st ∧ w'.strategies[s]? = some st' ∧ st.trades = L ∧ st'.trades = L' ∧
    st.pausedUntil = st'.pausedUntil ∧ st.stopped = st'.stopped
  len : L.length = L'.length
  nodup : L.Nodup
  nodup' : L'.Nodup
  twins : ∀ i j, Pair L L' i j → Twin w w' i j

theorem Pair.swap {L L' : List ℕ} {i j : ℕ} (h : Pair L L' i j) : Pair L' L j i := by
  obtain ⟨n, a, b⟩ := h; exact ⟨n, b, a⟩

theorem Rel.symm {s : ℕ} {L L' : List ℕ} {w w' : World} (h : Rel s L L' w w') : Rel s L' L w' w := by
  obtain ⟨st, st', a, b, c, d, e, f⟩ := h.own
  refine ⟨h.epics.symm, h.kinds.symm, h.refs.symm, ⟨st', st, b, a, d, c, e.symm, f.symm⟩, h.len.symm, h.nodup', h.nodup, ?_⟩
  intro i j hp
  obtain ⟨t, t', x, y, z⟩ := h.twins j i hp.swap
  exact ⟨t', t, y, x, z.symm⟩

theorem nodup_pos {L : List ℕ} (h : L.Nodup) {m n i : ℕ} (h1 : L[m]? = some i) (h2 : L[n]? = some i) : m = n :=
  (List.getElem?_inj (List.getElem?_eq_some_iff.mp h1).1 h).mp (h1.trans h2.symm)

theorem Pair.inj {L L' : List ℕ} (h : L.Nodup) {i j j' : ℕ} (h1 : Pair L L' i j) (h2 : Pair L L' i j') : j = j' := by
  obtain ⟨m, a, b⟩ := h1
  obtain ⟨n, c, d⟩ := h2
  have := nodup_pos h a c
  subst this
  rw [b] at d
  injection d

/-- Twins after one pair of trades was changed in the same way. -/
theorem twins_modify {L L' : List ℕ} {w w' : World} (hn : L.Nodup) (hn' : L'.Nodup) (ht : ∀ i j, Pair L L' i j → Twin w w' i j)
    {i j : ℕ} (hp : Pair L L' i j) {f f' : Trade → Trade}
    (hf : ∀ t t', w.trades[i]? = some t → w'.trades[j]? = some t' → t.blank = t'.blank → (f t).blank = (f' t').blank)
    {u u' : World} (hu : u.trades = w.trades.modify i f) (hu' : u'.trades = w'.trades.modify j f') :
    ∀ i j, Pair L L' i j → Twin u u' i j := by
  intro a b hab
  obtain ⟨t, t', h1, h2, h3⟩ := ht a b hab
  by_cases ha : a = i
  · subst ha
    have : b = j := hab.inj hn hp
    subst this
    refine ⟨f t, f' t', ?_, ?_, hf t t' h1 h2 h3⟩
    · rw [hu, List.getElem?_modify, h1]; simp
    · rw [hu', List.getElem?_modify, h2]; simp
  · have hb : b ≠ j := by
      rintro rfl
      exact ha (hab.swap.inj hn' hp.swap)
    refine ⟨t, t', ?_, ?_, h3⟩
    · rw [hu, List.getElem?_modify, h1]; simp [Ne.symm ha]
    · rw [hu', List.getElem?_modify, h2]; simp [Ne.symm hb]

/-- Both raise the same, or both succeed with related worlds. -/
def Both (s : ℕ) (L L' : List ℕ) (r r' : Except PyErr World) : Prop :=
  (∃ e, r = .error e ∧ r' = .error e) ∨ ∃ u u', r = .ok u ∧ r' = .ok u' ∧ Rel s L L' u u'

theorem rel_closeOn {s : ℕ} {L L' : List ℕ} {w w' : World} (h : Rel s L L' w w') {i j : ℕ} (hp : Pair L L' i j) (p : ℕ)
    (q : Option ℤ) : Both s L L' (w.closeOn p i q) (w'.closeOn p j q) := by
  obtain ⟨t, t', h1, h2, h3⟩ := h.twins i j hp
  have he : t.epic = t'.epic := (blank_same h3).1
  unfold World.closeOn
  rw [h1, h2]
  dsimp only
  rw [h.epics, he]
  rcases w'.epics[t'.epic]? with _ | ep
  · exact .inl ⟨_, rfl, rfl⟩
  · refine .inr ⟨_, _, rfl, rfl, ?_⟩
    refine ⟨h.epics, ?_, h.refs, h.own, h.len, h.nodup, h.nodup', ?_⟩
    · show (w.providers.modify p _).map _ = (w'.providers.modify p _).map _
      rw [map_modify_eq Provider.kind _ _ (fun pr => pr.spawn (.closing i t.closes.length)) (fun _ => rfl),
        map_modify_eq Provider.kind _ _ (fun pr => pr.spawn (.closing j t'.closes.length)) (fun _ => rfl)]
      exact h.kinds
    · refine twins_modify h.nodup h.nodup' h.twins hp (f := fun x => x.closeFromTick ep.lastTick q)
        (f' := fun x => x.closeFromTick ep.lastTick q) ?_
        (set_eq_modify w.trades i t (fun x : Trade => x.closeFromTick ep.lastTick q) h1)
        (set_eq_modify w'.trades j t' (fun x : Trade => x.closeFromTick ep.lastTick q) h2)
      intro x x' _ _ hx
      rw [← Trade.blank_closeFromTick, ← Trade.blank_closeFromTick, hx]

/-- Trades keep their strategy. -/
theorem closeOn_strategy {w w' : World} {p i : ℕ} {q : Option ℤ} (h : w.closeOn p i q = .ok w') (j : ℕ) :
    (w'.trades[j]?).map Trade.strategy = (w.trades[j]?).map Trade.strategy := by
  obtain ⟨t, ep, h1, -, h3, h4, -, -⟩ := closeOn_get h
  by_cases hj : j = i
  · subst hj
    rw [h1, h3]
    simp only [Option.map_some]
    rw [(kept_closeFromTick t ep.lastTick q).strategy]
  · rw [h4 j hj]

/-- Trades of other strategies are skipped. -/
theorem netLoop_filter (p : ℕ) (σ : ℕ → Option ℕ) (l : List ℕ) : ∀ (w : World) (new : Trade),
    (∀ i ∈ l, (w.trades[i]?).map Trade.strategy = some (σ i)) →
    netLoop p w new l = netLoop p w new (l.filter (fun i => σ i = new.strategy)) := by
  induction l with
  | nil => intro w new _; rfl
  | cons i rest ih =>
    intro w new h
    obtain ⟨t, ht, hs⟩ := Option.map_eq_some_iff.mp (h i (by simp))
    have hrest : ∀ j ∈ rest, (w.trades[j]?).map Trade.strategy = some (σ j) := fun j hj => h j (by simp [hj])
    by_cases hi : σ i = new.strategy
    · rw [List.filter_cons_of_pos (by simpa using hi)]
      unfold netLoop
      rw [ht]
      dsimp only
      rw [hs, hi]
      by_cases hd : t.dir = new.dir.opposite
      · simp only [hd, if_true, ne_eq, not_true_eq_false, if_false]
        simp only [bind, Except.bind]
        rcases hc : w.closeOn p i (some (min t.openedQty new.openQty)) with err | u
        · rfl
        · dsimp only
          exact ih u { new with openQty := new.openQty - min t.openedQty new.openQty }
            (fun j hj => (closeOn_strategy hc j).trans (hrest j hj))
      · simp only [hd, if_false]
        exact ih w new hrest
    · rw [List.filter_cons_of_neg (by simpa using hi)]
      conv_lhs => unfold netLoop
      rw [ht]
      dsimp only
      rw [hs]
      simp only [ne_eq, hi, not_false_eq_true, if_true, ite_self]
      exact ih w new hrest

theorem rel_netLoop {s : ℕ} {L L' : List ℕ} (p : ℕ) (l l' : List ℕ) (hl : List.Forall₂ (Pair L L') l l') :
    ∀ (w w' : World) (new : Trade), Rel s L L' w w' →
    (∃ e, netLoop p w new l = .error e ∧ netLoop p w' new l' = .error e) ∨
    ∃ u u' n, netLoop p w new l = .ok (u, n) ∧ netLoop p w' new l' = .ok (u', n) ∧ Rel s L L' u u' := by
  induction hl with
  | nil => intro w w' new h; exact .inr ⟨w, w', new, rfl, rfl, h⟩
  | cons hp hl ih =>
    rename_i i j l l'
    intro w w' new h
    obtain ⟨t, t', h1, h2, h3⟩ := h.twins i j hp
    unfold netLoop
    rw [h1, h2]
    dsimp only
    have e1 : t.dir = t'.dir := (blank_same h3).2.1
    have e2 : t.strategy = t'.strategy := (blank_same h3).2.2.1
    have e3 : t.openedQty = t'.openedQty := by rw [← Trade.blank_openedQty, h3, Trade.blank_openedQty]
    rw [e1, e2, e3]
    split_ifs
    · exact ih w w' new h
    · simp only [bind, Except.bind]
      rcases rel_closeOn h hp p (some (min t'.openedQty new.openQty)) with ⟨e, a, b⟩ | ⟨u, u', a, b, c⟩
      · rw [a, b]
        exact .inl ⟨e, rfl, rfl⟩
      · rw [a, b]
        exact ih u u' _ c
    · exact ih w w' new h

theorem rel_closeOpenedLoop {s : ℕ} {L L' : List ℕ} (q : Option ℤ) (l l' : List ℕ) (hl : List.Forall₂ (Pair L L') l l') :
    ∀ (w w' : World), Rel s L L' w w' → Both s L L' (closeOpenedLoop q w l) (closeOpenedLoop q w' l') := by
  induction hl with
  | nil => intro w w' h; exact .inr ⟨w, w', rfl, rfl, h⟩
  | cons hp hl ih =>
    rename_i i j l l'
    intro w w' h
    obtain ⟨t, t', h1, h2, h3⟩ := h.twins i j hp
    unfold closeOpenedLoop
    rw [h1, h2]
    dsimp only
    have e1 : t.closed = t'.closed := by rw [← Trade.blank_closed, h3, Trade.blank_closed]
    have e2 : t.epic = t'.epic := (blank_same h3).1
    rw [e1, e2]
    split_ifs
    · exact ih w w' h
    · unfold World.closeTrade
      rw [h.epics]
      rcases w'.epics[t'.epic]? with _ | ep
      · exact .inl ⟨_, rfl, rfl⟩
      · simp only [bind, Except.bind]
        rcases rel_closeOn h hp ep.provider q with ⟨e, a, b⟩ | ⟨u, u', a, b, c⟩
        · rw [a, b]
          exact .inl ⟨e, rfl, rfl⟩
        · rw [a, b]
          exact ih u u' c

/-! ## The trades of the strategy on a provider -/

theorem pairs_self {L L' : List ℕ} (h : L.length = L'.length) : List.Forall₂ (Pair L L') L L' := by
  rw [List.forall₂_iff_get]
  refine ⟨h, ?_⟩
  intro n h1 h2
  exact ⟨n, by simp, by simp⟩

theorem forall₂_filter {α β : Type} {R : α → β → Prop} {l : List α} {l' : List β} (h : List.Forall₂ R l l') (p : α → Bool)
    (p' : β → Bool) (hp : ∀ a b, R a b → p a = p' b) : List.Forall₂ R (l.filter p) (l'.filter p') := by
  induction h with
  | nil => exact .nil
  | cons hab _ ih =>
    rw [List.filter_cons, List.filter_cons, hp _ _ hab]
    split_ifs
    · exact .cons hab ih
    · exact ih

/-- The open trades of strategy `s` that provider `p` lists, latest first, are those of the strategy on epics of `p`. -/
theorem opened_own {w : World} (hi : RegInv w) {s : ℕ} {st : Strategy} (hs : w.strategies[s]? = some st) {p : ℕ} {pr : Provider}
    (hp : w.providers[p]? = some pr) :
    (w.openedTrades pr).filter (fun i => ((w.trades[i]?).bind Trade.strategy) = some s) =
      (st.trades.filter (fun i => match w.trades[i]? with
        | none => false
        | some t => decide (w.providerOf t = some p) && !t.closed)).reverse := by
  have key : ∀ (l l' : List ℕ), l.Pairwise (· < ·) → l'.Pairwise (· < ·) → (∀ i, i ∈ l ↔ i ∈ l') → l = l' := by
    intro l l' h1 h2 h3
    have : l.Perm l' := (List.perm_ext_iff_of_nodup (h1.imp (fun h => h.ne)) (h2.imp (fun h => h.ne))).mpr h3
    exact this.eq_of_pairwise (le := (· < ·)) (fun a b _ _ h h' => absurd h (by omega)) h1 h2
  unfold World.openedTrades
  rw [List.filter_filter, List.filter_reverse]
  congr 1
  apply key
  · exact (hi.provInc p pr hp).filter _
  · exact (hi.stratInc s st hs).filter _
  · intro i
    rw [List.mem_filter, List.mem_filter]
    constructor
    · rintro ⟨h1, h2⟩
      have hlt := hi.provLt p pr hp i h1
      obtain ⟨t, ht⟩ : ∃ t, w.trades[i]? = some t := ⟨_, List.getElem?_eq_getElem hlt⟩
      rw [ht] at h2 ⊢
      simp only [Option.bind_some, Bool.and_eq_true, decide_eq_true_eq] at h2 ⊢
      exact ⟨(hi.stratOf i t s st ht hs).mpr ⟨h2.1, p, pr, hp, h1⟩, hi.provOf i t p pr ht hp h1, h2.2⟩
    · rintro ⟨h1, h2⟩
      have hlt := hi.stratLt s st hs i h1
      obtain ⟨t, ht⟩ : ∃ t, w.trades[i]? = some t := ⟨_, List.getElem?_eq_getElem hlt⟩
      rw [ht] at h2 ⊢
      simp only [Option.bind_some, Bool.and_eq_true, decide_eq_true_eq] at h2 ⊢
      obtain ⟨h3, p', pr', h4, h5⟩ := (hi.stratOf i t s st ht hs).mp h1
      have := hi.provOf i t p' pr' ht h4 h5
      rw [h2.1] at this
      injection this with this
      subst this
      rw [hp] at h4
      injection h4 with h4
      subst h4
      exact ⟨h5, h3, h2.2⟩

theorem Rel.providerOf {s : ℕ} {L L' : List ℕ} {w w' : World} (h : Rel s L L' w w') {t t' : Trade} (ht : t.blank = t'.blank) :
    w.providerOf t = w'.providerOf t' := by
  unfold World.providerOf
  rw [h.epics, show t.epic = t'.epic from (blank_same ht).1]

theorem netLoop_own {w : World} (hi : RegInv w) {s : ℕ} {st : Strategy} (hs : w.strategies[s]? = some st) {p : ℕ} {pr : Provider}
    (hp : w.providers[p]? = some pr) (new : Trade) (hn : new.strategy = some s) :
    netLoop p w new (w.openedTrades pr) = netLoop p w new (st.trades.filter (fun i => match w.trades[i]? with
        | none => false
        | some t => decide (w.providerOf t = some p) && !t.closed)).reverse := by
  rw [netLoop_filter p (fun i => (w.trades[i]?).bind Trade.strategy) (w.openedTrades pr) w new ?_, hn, opened_own hi hs hp]
  intro i him
  obtain ⟨-, t, ht, -⟩ := (mem_openedTrades w pr i).mp him
  rw [ht]
  rfl

/-! ## Operations of the strategy -/

/-- Two worlds of runs that look the same to strategy `s`. -/
structure Sim (s : ℕ) (w w' : World) : Prop where
  reg : RegInv w
  reg' : RegInv w'
  ok : EpicsOk w
  ok' : EpicsOk w'
  rel : ∃ L L', Rel s L L' w w'

theorem Sim.symm {s : ℕ} {w w' : World} (h : Sim s w w') : Sim s w' w := by
  obtain ⟨L, L', hr⟩ := h.rel
  exact ⟨h.reg', h.reg, h.ok', h.ok, L', L, hr.symm⟩

theorem rel_pairs {s : ℕ} {L L' : List ℕ} {w w' : World} (h : Rel s L L' w w') (p : ℕ) :
    List.Forall₂ (Pair L L') (L.filter (fun i => match w.trades[i]? with
        | none => false
        | some t => decide (w.providerOf t = some p) && !t.closed)).reverse
      (L'.filter (fun i => match w'.trades[i]? with
        | none => false
        | some t => decide (w'.providerOf t = some p) && !t.closed)).reverse := by
  apply List.rel_reverse
  apply forall₂_filter (pairs_self h.len)
  intro i j hp
  obtain ⟨t, t', h1, h2, h3⟩ := h.twins i j hp
  rw [h1, h2]
  dsimp only
  rw [h.providerOf h3, (blank_same h3).2.2.2.1]

theorem rel_append {s : ℕ} {L L' : List ℕ} {w w' : World} (h : Rel s L L' w w') (x y : Trade) :
    Rel s L L' { w with trades := w.trades ++ [x] } { w' with trades := w'.trades ++ [y] } := by
  refine ⟨h.epics, h.kinds, h.refs, h.own, h.len, h.nodup, h.nodup', ?_⟩
  intro i j hp
  obtain ⟨t, t', h1, h2, h3⟩ := h.twins i j hp
  refine ⟨t, t', ?_, ?_, h3⟩
  · show (w.trades ++ [x])[i]? = _
    rw [List.getElem?_append_left (List.getElem?_eq_some_iff.mp h1).1]; exact h1
  · show (w'.trades ++ [y])[j]? = _
    rw [List.getElem?_append_left (List.getElem?_eq_some_iff.mp h2).1]; exact h2

theorem pair_append {L L' : List ℕ} (hl : L.length = L'.length) {a b i j : ℕ} (h : Pair (L ++ [a]) (L' ++ [b]) i j) :
    Pair L L' i j ∨ (i = a ∧ j = b) := by
  obtain ⟨n, h1, h2⟩ := h
  rcases Nat.lt_trichotomy n L.length with hn | hn | hn
  · rw [List.getElem?_append_left hn] at h1
    rw [List.getElem?_append_left (by omega)] at h2
    exact .inl ⟨n, h1, h2⟩
  · subst hn
    rw [List.getElem?_append_right (by omega)] at h1
    rw [List.getElem?_append_right (by omega)] at h2
    simp only [Nat.sub_self, List.getElem?_cons_zero, Option.some.injEq, hl] at h1 h2
    exact .inr ⟨h1.symm, h2.symm⟩
  · rw [List.getElem?_eq_none (by simp; omega)] at h1
    cases h1

theorem rel_register {s : ℕ} {L L' : List ℕ} {w w' : World} (h : Rel s L L' w w') {i j : ℕ} (ht : Twin w w' i j) (hi : i ∉ L)
    (hj : j ∉ L') (p : ℕ) : Rel s (L ++ [i]) (L' ++ [j]) (w.register p i (some s)) (w'.register p j (some s)) := by
  obtain ⟨a1, a2, a3, a4, -⟩ := register_eq w p i (some s)
  obtain ⟨b1, b2, b3, b4, -⟩ := register_eq w' p j (some s)
  obtain ⟨st, st', h1, h2, h3, h4, h5, h6⟩ := h.own
  refine ⟨by rw [a2, b2]; exact h.epics, ?_, ?_, ?_, by simp [h.len], ?_, ?_, ?_⟩
  · rw [a3, b3, map_modify_eq, map_modify_eq]
    · exact h.kinds
    · intro x; rfl
    · intro x; rfl
  · rw [a4, b4]
    dsimp only
    rw [map_modify_eq, map_modify_eq]
    · exact h.refs
    · intro x; rfl
    · intro x; rfl
  · refine ⟨{ st with trades := st.trades ++ [i] }, { st' with trades := st'.trades ++ [j] }, ?_, ?_, ?_, ?_, h5, h6⟩
    · rw [a4]; simp [h1]
    · rw [b4]; simp [h2]
    · show st.trades ++ _ = _; rw [h3]
    · show st'.trades ++ _ = _; rw [h4]
  · exact List.nodup_append.mpr ⟨h.nodup, by simp, by intro a ha b hb; rw [List.mem_singleton.mp hb]; rintro rfl; exact hi ha⟩
  · exact List.nodup_append.mpr ⟨h.nodup', by simp, by intro a ha b hb; rw [List.mem_singleton.mp hb]; rintro rfl; exact hj ha⟩
  · intro x y hxy
    rw [Twin, a1, b1]
    rcases pair_append h.len hxy with hp | ⟨rfl, rfl⟩
    · exact h.twins x y hp
    · exact ht

theorem sim_open {s : ℕ} {w w' : World} (h : Sim s w w') (e : ℕ) (d : Option Dir) (q : ℤ) :
    (w.step (.openTrade e (some s) d q)).2 = (w'.step (.openTrade e (some s) d q)).2 ∧
    ∃ L L', Rel s L L' (w.step (.openTrade e (some s) d q)).1 (w'.step (.openTrade e (some s) d q)).1 := by
  obtain ⟨L, L', hr⟩ := h.rel
  simp only [World.step]
  rw [hr.epics]
  rcases hep : w'.epics[e]? with _ | ep
  · exact ⟨rfl, L, L', hr⟩
  · dsimp only
    have hlen : w.strategies.length = w'.strategies.length := by simpa using congrArg List.length hr.refs
    rw [hlen]
    split_ifs
    · rcases hn : Trade.openFromTick ep.lastTick e d q (some s) with err | new
      · exact ⟨rfl, L, L', hr⟩
      · have hns : new.strategy = some s := (openFromTick_fresh hn).2.1
        simp only [bind, Except.bind]
        unfold World.providerOpen
        have hk : ∀ (p : ℕ), (w.providers[p]?).map Provider.kind = (w'.providers[p]?).map Provider.kind := by
          intro p
          rw [← List.getElem?_map, ← List.getElem?_map, hr.kinds]
        have hk := hk ep.provider
        rcases hpr : w.providers[ep.provider]? with _ | pr
        · rw [hpr] at hk
          rcases hpr' : w'.providers[ep.provider]? with _ | pr'
          · exact ⟨rfl, L, L', hr⟩
          · rw [hpr'] at hk; cases hk
        · rw [hpr] at hk
          rcases hpr' : w'.providers[ep.provider]? with _ | pr'
          · rw [hpr'] at hk; cases hk
          · rw [hpr'] at hk
            simp only [Option.map_some, Option.some.injEq] at hk
            dsimp only
            rw [hk, hns]
            obtain ⟨st, st', h1, h2, h3, h4, h5, h6⟩ := hr.own
            have fresh : ∀ (u u' : World) (n : Trade), Rel s L L' u u' → u.trades.length = w.trades.length →
                u'.trades.length = w'.trades.length → ∃ M M', Rel s M M'
                  (({ u with trades := u.trades ++ [n] } : World).register ep.provider u.trades.length (some s))
                  (({ u' with trades := u'.trades ++ [n] } : World).register ep.provider u'.trades.length (some s)) := by
              intro u u' n hu hl hl'
              refine ⟨_, _, rel_register (rel_append hu n n) ⟨n, n, by simp, by simp, rfl⟩ ?_ ?_ ep.provider⟩
              · intro hm
                have := h.reg.stratLt s st h1 _ (by rw [h3]; exact hm)
                omega
              · intro hm
                have := h.reg'.stratLt s st' h2 _ (by rw [h4]; exact hm)
                omega
            cases pr'.kind with
            | custom => exact ⟨rfl, fresh w w' new hr rfl rfl⟩
            | backtests =>
              dsimp only
              have hp := rel_pairs hr ep.provider
              rw [← h3, ← h4] at hp
              rw [netLoop_own h.reg h1 hpr new hns, netLoop_own h.reg' h2 hpr' new hns]
              rw [h3, h4] at hp ⊢
              rcases rel_netLoop ep.provider _ _ hp w w' new hr with ⟨err, a, b⟩ | ⟨u, u', n, a, b, c⟩
              · rw [a, b]
                exact ⟨rfl, L, L', hr⟩
              · obtain ⟨l1, -, -⟩ := netLoop_others _ _ _ _ _ a
                obtain ⟨l2, -, -⟩ := netLoop_others _ _ _ _ _ b
                rw [a, b]
                simp only [bind, Except.bind]
                split_ifs
                · exact ⟨rfl, L, L', rel_append c n n⟩
                · exact ⟨rfl, fresh u u' n c l1 l2⟩
    · exact ⟨rfl, L, L', hr⟩

theorem rel_modTrade {s : ℕ} {L L' : List ℕ} {w w' : World} (h : Rel s L L' w w') {i j : ℕ} (hp : Pair L L' i j)
    (f : Trade → Trade) (hf : ∀ t : Trade, f t.blank = (f t).blank) :
    Rel s L L' { w with trades := w.trades.modify i f } { w' with trades := w'.trades.modify j f } := by
  refine ⟨h.epics, h.kinds, h.refs, h.own, h.len, h.nodup, h.nodup',
    twins_modify h.nodup h.nodup' h.twins hp (f := f) (f' := f) ?_ rfl rfl⟩
  intro t t' _ _ ht
  rw [← hf, ← hf, ht]

theorem rel_modStrategy {s : ℕ} {L L' : List ℕ} {w w' : World} (h : Rel s L L' w w') (f : Strategy → Strategy)
    (hf : ∀ st, (f st).trades = st.trades ∧ (f st).ref = st.ref)
    (hf' : ∀ st st' : Strategy, st.pausedUntil = st'.pausedUntil → st.stopped = st'.stopped →
      (f st).pausedUntil = (f st').pausedUntil ∧ (f st).stopped = (f st').stopped) :
    Rel s L L' (w.modStrategy s f) (w'.modStrategy s f) := by
  obtain ⟨st, st', h1, h2, h3, h4, h5, h6⟩ := h.own
  refine ⟨h.epics, h.kinds, ?_, ?_, h.len, h.nodup, h.nodup', h.twins⟩
  · show (w.strategies.modify s f).map _ = (w'.strategies.modify s f).map _
    rw [map_modify_eq _ _ _ _ (fun x => (hf x).2), map_modify_eq _ _ _ _ (fun x => (hf x).2)]
    exact h.refs
  · refine ⟨f st, f st', ?_, ?_, by rw [(hf st).1, h3], by rw [(hf st').1, h4], hf' st st' h5 h6⟩
    · show (w.strategies.modify s f)[s]? = _
      rw [List.getElem?_modify, h1]; simp
    · show (w'.strategies.modify s f)[s]? = _
      rw [List.getElem?_modify, h2]; simp

end
end Estrade
