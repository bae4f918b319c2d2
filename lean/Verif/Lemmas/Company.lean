import Verif.Props.Isolation
import Verif.Lemmas.Dicts

/-!
# Two systems that look the same to one strategy each

As Lemmas/Isolation.lean, but the strategy may have different positions and references in the two systems, and the other strategies, their number
and their registrations may differ, and so may the epics outside of a set `E` with providers of its own.
-/

set_option linter.unusedSectionVars false
set_option autoImplicit false

namespace Estrade

/-- A trade without its statuses and without the strategy it belongs to. -/
def Trade.anon (t : Trade) : Trade := { t.blank with strategy := none }

/-- An epic without the strategies registered with it. -/
def Epic.bare (ep : Epic) : Epic := { ep with strategies := [] }

/-- The position, the reference and the number of strategies in each system; the epics the strategy deals with. -/
structure Co where
  s : ℕ
  s' : ℕ
  r : String
  r' : String
  n : ℕ
  n' : ℕ
  E : ℕ → Bool

def Co.swap (c : Co) : Co := ⟨c.s', c.s, c.r', c.r, c.n', c.n, c.E⟩

/-- Both absent, or both present and related. -/
def Opt2 {α β : Type} (R : α → β → Prop) (o : Option α) (o' : Option β) : Prop :=
  (o = none ∧ o' = none) ∨ ∃ a b, o = some a ∧ o' = some b ∧ R a b

theorem opt2_set {α β : Type} {R : α → β → Prop} {E : ℕ → Bool} {l : List α} {l' : List β} (h : ∀ e : ℕ, E e = true → Opt2 R l[e]? l'[e]?) {e : ℕ}
    {a : α} {b : β} (hab : R a b) (j : ℕ) (hE : E j = true) : Opt2 R (l.set e a)[j]? (l'.set e b)[j]? := by
  rw [List.getElem?_set, List.getElem?_set]
  by_cases hj : e = j
  · subst hj
    simp only [if_true]
    rcases h e hE with ⟨h1, h2⟩ | ⟨x, y, h1, h2, -⟩
    · rw [if_neg (by simpa using h1), if_neg (by simpa using h2)]
      exact .inl ⟨rfl, rfl⟩
    · rw [if_pos (List.getElem?_eq_some_iff.mp h1).1, if_pos (List.getElem?_eq_some_iff.mp h2).1]
      exact .inr ⟨a, b, rfl, rfl, hab⟩
  · rw [if_neg hj, if_neg hj]
    exact h j hE

/-- The epics outside of `E` have other providers than those in `E`, and strategy `s` is not registered with them. -/
structure Beside (E : ℕ → Bool) (s : ℕ) (l : List Epic) : Prop where
  none : ∀ (f : ℕ) fp, E f = false → l[f]? = some fp → s ∉ fp.strategies.map Prod.snd
  provider : ∀ (e f : ℕ) ep fp, E e = true → E f = false → l[e]? = some ep → l[f]? = some fp → fp.provider ≠ ep.provider

theorem Beside.set {E : ℕ → Bool} {s : ℕ} {l : List Epic} (h : Beside E s l) {e : ℕ} {ep x : Epic} (he : l[e]? = some ep)
    (hx : x.provider = ep.provider) (hs : E e = false → s ∉ x.strategies.map Prod.snd) : Beside E s (l.set e x) := by
  have back : ∀ (f : ℕ) (fp : Epic), (l.set e x)[f]? = some fp → ∃ gp, l[f]? = some gp ∧ fp.provider = gp.provider ∧ (f ≠ e → fp = gp) ∧
      (f = e → fp = x) := by
    intro f fp hf
    by_cases hne : e = f
    · subst hne
      rw [List.getElem?_set_self (List.getElem?_eq_some_iff.mp he).1] at hf
      injection hf with hf
      subst hf
      exact ⟨ep, he, hx, fun hc => absurd rfl hc, fun _ => rfl⟩
    · rw [List.getElem?_set_ne hne] at hf
      exact ⟨fp, hf, rfl, fun _ => rfl, fun hc => absurd hc.symm hne⟩
  constructor
  · intro f fp hE hf
    obtain ⟨gp, h1, -, h3, h4⟩ := back f fp hf
    by_cases hne : f = e
    · subst hne; rw [h4 rfl]; exact hs hE
    · rw [h3 hne]; exact h.none f gp hE h1
  · intro a b ap bp ha hb h1 h2
    obtain ⟨gp, g1, g2, -, -⟩ := back a ap h1
    obtain ⟨kp, k1, k2, -, -⟩ := back b bp h2
    rw [g2, k2]
    exact h.provider a b gp kp ha hb g1 k1

section
variable [Arith]

/-! ## Trades -/

theorem nobody_updateMinMax (t : Trade) : ({ t with strategy := none } : Trade).updateMinMax = { t.updateMinMax with strategy := none } := by
  have h0 : ({ t with strategy := none } : Trade).result = t.result := rfl
  have h1 : ∀ (u : Trade) (x : ℚ), ({ u with maxRes := x } : Trade).result = u.result := fun _ _ => rfl
  unfold Trade.updateMinMax
  rw [h0]
  simp only
  by_cases h : t.maxRes < t.result
  · simp only [h, if_true]
    rw [h1 t t.result, show ({ t with maxRes := t.result, strategy := none } : Trade).result = t.result from rfl]
    split_ifs <;> rfl
  · simp only [h, if_false]
    rw [h0]
    split_ifs <;> rfl

theorem nobody_update (t : Trade) (v : ℚ) : ({ t with strategy := none } : Trade).update v = { t.update v with strategy := none } := by
  unfold Trade.update
  rw [show ({ t with strategy := none } : Trade).closed = t.closed from rfl]
  split_ifs
  · rfl
  · exact nobody_updateMinMax { t with curClose := v }

theorem anon_update (t : Trade) (v : ℚ) : t.anon.update v = (t.update v).anon := by
  unfold Trade.anon
  rw [nobody_update, Trade.blank_update]

theorem anon_updateFromTick (t : Trade) (k : Tick) : t.anon.updateFromTick k = (t.updateFromTick k).anon := by
  unfold Trade.updateFromTick
  rw [← anon_update]
  rfl

theorem anon_close (t : Trade) (v : ℚ) (dt : DT) (q : Option ℤ) : t.anon.close v dt q = (t.close v dt q).anon := by
  unfold Trade.anon
  rw [← Trade.blank_close]
  rfl

theorem anon_closeFromTick (t : Trade) (k : Tick) (q : Option ℤ) : t.anon.closeFromTick k q = (t.closeFromTick k q).anon := by
  unfold Trade.closeFromTick
  simp only
  rw [anon_updateFromTick, ← anon_close]
  rfl

theorem anon_same {t t' : Trade} (h : t.anon = t'.anon) : t.epic = t'.epic ∧ t.dir = t'.dir ∧ t.closed = t'.closed ∧ t.openedQty = t'.openedQty := by
  have hc : ∀ u : Trade, u.anon.closed = u.closed := fun u => Trade.blank_closed u
  have ho : ∀ u : Trade, u.anon.openedQty = u.openedQty := fun u => Trade.blank_openedQty u
  exact ⟨show t.anon.epic = t'.anon.epic by rw [h], show t.anon.dir = t'.anon.dir by rw [h], by rw [← hc, h, hc], by rw [← ho, h, ho]⟩

theorem anon_result (t : Trade) : t.anon.result = t.result := Trade.blank_result t

/-! ## The relation -/

/-- The trades agree but for statuses, and each belongs to the strategy of its system. -/
def Fellow (c : Co) (w w' : World) (i j : ℕ) : Prop :=
  ∃ t t', w.trades[i]? = some t ∧ w'.trades[j]? = some t' ∧ t.anon = t'.anon ∧ t.strategy = some c.s ∧
    t'.strategy = some c.s' ∧ c.E t.epic = true

/-- The epics agree but for the other strategies. -/
structure Same (c : Co) (ep ep' : Epic) : Prop where
  bare : ep.bare = ep'.bare
  count : (ep.strategies.map Prod.snd).count c.s = (ep'.strategies.map Prod.snd).count c.s'
  has : (ep.strategies.get? c.r).isSome = (ep'.strategies.get? c.r').isSome
  valid : ∀ x ∈ ep.strategies.map Prod.snd, x < c.n
  valid' : ∀ x ∈ ep'.strategies.map Prod.snd, x < c.n'

structure Peers (c : Co) (L L' : List ℕ) (w w' : World) : Prop where
  epics : ∀ e : ℕ, c.E e = true → Opt2 (Same c) w.epics[e]? w'.epics[e]?
  kinds : ∀ (e : ℕ) ep, c.E e = true → w.epics[e]? = some ep →
    (w.providers.map Provider.kind)[ep.provider]? = (w'.providers.map Provider.kind)[ep.provider]?
  apart : Beside c.E c.s w.epics
  apart' : Beside c.E c.s' w'.epics
  size : w.strategies.length = c.n
  size' : w'.strategies.length = c.n'
  uniq : ∀ i : ℕ, (w.strategies.map Strategy.ref)[i]? = some c.r → i = c.s
  uniq' : ∀ i : ℕ, (w'.strategies.map Strategy.ref)[i]? = some c.r' → i = c.s'
  own : ∃ st st', w.strategies[c.s]? = some st ∧ w'.strategies[c.s']? = some st' ∧ st.trades = L ∧ st'.trades = L' ∧
    st.pausedUntil = st'.pausedUntil ∧ st.stopped = st'.stopped ∧ st.ref = c.r ∧ st'.ref = c.r'
  len : L.length = L'.length
  nodup : L.Nodup
  nodup' : L'.Nodup
  twins : ∀ i j, Pair L L' i j → Fellow c w w' i j

theorem Opt2.swap {α β : Type} {R : α → β → Prop} {R' : β → α → Prop} (hR : ∀ a b, R a b → R' b a) {o : Option α} {o' : Option β}
    (h : Opt2 R o o') : Opt2 R' o' o := by
  rcases h with ⟨a, b⟩ | ⟨a, b, h1, h2, h3⟩
  · exact .inl ⟨b, a⟩
  · exact .inr ⟨b, a, h2, h1, hR _ _ h3⟩

theorem Same.swap {c : Co} {ep ep' : Epic} (h : Same c ep ep') : Same c.swap ep' ep :=
  ⟨h.bare.symm, h.count.symm, h.has.symm, h.valid', h.valid⟩

theorem Same.tick {c : Co} {ep ep' : Epic} (h : Same c ep ep') : ep.lastTick = ep'.lastTick :=
  show ep.bare.lastTick = ep'.bare.lastTick by rw [h.bare]

theorem Same.provider {c : Co} {ep ep' : Epic} (h : Same c ep ep') : ep.provider = ep'.provider :=
  show ep.bare.provider = ep'.bare.provider by rw [h.bare]

theorem Peers.swap {c : Co} {L L' : List ℕ} {w w' : World} (h : Peers c L L' w w') : Peers c.swap L' L w' w := by
  obtain ⟨st, st', a, b, c1, d, e, f, g, g'⟩ := h.own
  refine ⟨fun e hE => (h.epics e hE).swap (fun _ _ => Same.swap), fun e ep hE he => ?_, h.apart', h.apart, h.size', h.size, h.uniq', h.uniq,
    ⟨st', st, b, a, d, c1, e.symm, f.symm, g', g⟩, h.len.symm, h.nodup', h.nodup, ?_⟩
  · rcases h.epics e hE with ⟨a1, a2⟩ | ⟨fp, fp', a1, a2, a3⟩
    · rw [he] at a2; cases a2
    · rw [he] at a2
      injection a2 with a2
      subst a2
      rw [← a3.provider]
      exact (h.kinds e fp hE a1).symm
  · intro i j hp
    obtain ⟨t, t', x, y, z, p, q, r⟩ := h.twins j i hp.swap
    exact ⟨t', t, y, x, z.symm, q, p, by rw [← (anon_same z).1]; exact r⟩

theorem fellows_modify {c : Co} {L L' : List ℕ} {w w' : World} (hn : L.Nodup) (hn' : L'.Nodup) (ht : ∀ i j, Pair L L' i j → Fellow c w w' i j)
    {i j : ℕ} (hp : Pair L L' i j) {f f' : Trade → Trade} (hs : ∀ t, (f t).strategy = t.strategy ∧ (f t).epic = t.epic)
    (hs' : ∀ t, (f' t).strategy = t.strategy ∧ (f' t).epic = t.epic)
    (hf : ∀ t t', w.trades[i]? = some t → w'.trades[j]? = some t' → t.anon = t'.anon → (f t).anon = (f' t').anon)
    {u u' : World} (hu : u.trades = w.trades.modify i f) (hu' : u'.trades = w'.trades.modify j f') :
    ∀ i j, Pair L L' i j → Fellow c u u' i j := by
  intro a b hab
  obtain ⟨t, t', h1, h2, h3, h4, h5, h6⟩ := ht a b hab
  by_cases ha : a = i
  · subst ha
    have : b = j := hab.inj hn hp
    subst this
    refine ⟨f t, f' t', ?_, ?_, hf t t' h1 h2 h3, by rw [(hs t).1, h4], by rw [(hs' t').1, h5], by rw [(hs t).2, h6]⟩
    · rw [hu, List.getElem?_modify, h1]; simp
    · rw [hu', List.getElem?_modify, h2]; simp
  · have hb : b ≠ j := by
      rintro rfl
      exact ha (hab.swap.inj hn' hp.swap)
    refine ⟨t, t', ?_, ?_, h3, h4, h5, h6⟩
    · rw [hu, List.getElem?_modify, h1]; simp [Ne.symm ha]
    · rw [hu', List.getElem?_modify, h2]; simp [Ne.symm hb]

/-- Both raise the same, or both succeed with related worlds. -/
def Both2 (c : Co) (L L' : List ℕ) (r r' : Except PyErr World) : Prop :=
  (∃ e, r = .error e ∧ r' = .error e) ∨ ∃ u u', r = .ok u ∧ r' = .ok u' ∧ Peers c L L' u u'

theorem peers_closeOn {c : Co} {L L' : List ℕ} {w w' : World} (h : Peers c L L' w w') {i j : ℕ} (hp : Pair L L' i j) (p : ℕ)
    (q : Option ℤ) : Both2 c L L' (w.closeOn p i q) (w'.closeOn p j q) := by
  obtain ⟨t, t', h1, h2, h3, h4, h5, h6⟩ := h.twins i j hp
  have he : t.epic = t'.epic := (anon_same h3).1
  unfold World.closeOn
  rw [h1, h2]
  dsimp only
  rw [he] at h6 ⊢
  rcases h.epics t'.epic h6 with ⟨e1, e2⟩ | ⟨ep, ep', e1, e2, e3⟩
  · rw [e1, e2]; exact .inl ⟨_, rfl, rfl⟩
  · rw [e1, e2]
    dsimp only
    rw [e3.tick]
    refine .inr ⟨_, _, rfl, rfl, ?_⟩
    refine ⟨h.epics, ?_, h.apart, h.apart', h.size, h.size', h.uniq, h.uniq', h.own, h.len, h.nodup, h.nodup', ?_⟩
    · intro e0 ep0 hE0 he0
      show ((w.providers.modify p _).map _)[_]? = ((w'.providers.modify p _).map _)[_]?
      rw [map_modify_eq Provider.kind _ _ (fun pr => pr.spawn (.closing i t.closes.length)) (fun _ => rfl),
        map_modify_eq Provider.kind _ _ (fun pr => pr.spawn (.closing j t'.closes.length)) (fun _ => rfl)]
      exact h.kinds e0 ep0 hE0 he0
    · refine fellows_modify h.nodup h.nodup' h.twins hp (f := fun x => x.closeFromTick ep'.lastTick q)
        (f' := fun x => x.closeFromTick ep'.lastTick q) (fun x => ⟨(kept_closeFromTick x _ _).strategy, (kept_closeFromTick x _ _).epic⟩)
        (fun x => ⟨(kept_closeFromTick x _ _).strategy, (kept_closeFromTick x _ _).epic⟩) ?_
        (set_eq_modify w.trades i t (fun x : Trade => x.closeFromTick ep'.lastTick q) h1)
        (set_eq_modify w'.trades j t' (fun x : Trade => x.closeFromTick ep'.lastTick q) h2)
      intro x x' _ _ hx
      rw [← anon_closeFromTick, ← anon_closeFromTick, hx]

theorem peers_netLoop {c : Co} {L L' : List ℕ} (p : ℕ) (l l' : List ℕ) (hl : List.Forall₂ (Pair L L') l l') :
    ∀ (w w' : World) (new : Trade), Peers c L L' w w' → new.strategy = some c.s →
    (∃ e, netLoop p w new l = .error e ∧ netLoop p w' { new with strategy := some c.s' } l' = .error e) ∨
    ∃ u u' n, netLoop p w new l = .ok (u, n) ∧ netLoop p w' { new with strategy := some c.s' } l' = .ok (u', { n with strategy := some c.s' }) ∧
      n.strategy = some c.s ∧ n.epic = new.epic ∧ Peers c L L' u u' := by
  induction hl with
  | nil => intro w w' new h hn; exact .inr ⟨w, w', new, rfl, rfl, hn, rfl, h⟩
  | cons hp hl ih =>
    rename_i i j l l'
    intro w w' new h hn
    obtain ⟨t, t', h1, h2, h3, h4, h5, -⟩ := h.twins i j hp
    have e1 : t.dir = t'.dir := (anon_same h3).2.1
    have e3 : t.openedQty = t'.openedQty := (anon_same h3).2.2.2
    unfold netLoop
    rw [h1, h2]
    dsimp only
    rw [e1, e3]
    by_cases hd : t'.dir = new.dir.opposite
    · rw [if_pos hd, if_pos hd, if_neg (by rw [h4, hn]; simp), if_neg (by rw [h5]; simp)]
      simp only [bind, Except.bind]
      rcases peers_closeOn h hp p (some (min t'.openedQty new.openQty)) with ⟨e, a, b⟩ | ⟨u, u', a, b, d⟩
      · rw [a, b]
        exact .inl ⟨e, rfl, rfl⟩
      · rw [a, b]
        exact ih u u' { new with openQty := new.openQty - min t'.openedQty new.openQty } d hn
    · rw [if_neg hd, if_neg hd]
      exact ih w w' new h hn

theorem peers_closeOpenedLoop {c : Co} {L L' : List ℕ} (q : Option ℤ) (l l' : List ℕ) (hl : List.Forall₂ (Pair L L') l l') :
    ∀ (w w' : World), Peers c L L' w w' → Both2 c L L' (closeOpenedLoop q w l) (closeOpenedLoop q w' l') := by
  induction hl with
  | nil => intro w w' h; exact .inr ⟨w, w', rfl, rfl, h⟩
  | cons hp hl ih =>
    rename_i i j l l'
    intro w w' h
    obtain ⟨t, t', h1, h2, h3, h4, h5, h6⟩ := h.twins i j hp
    rw [(anon_same h3).1] at h6
    unfold closeOpenedLoop
    rw [h1, h2]
    dsimp only
    rw [(anon_same h3).2.2.1, (anon_same h3).1]
    split_ifs
    · exact ih w w' h
    · unfold World.closeTrade
      rcases h.epics t'.epic h6 with ⟨e1, e2⟩ | ⟨ep, ep', e1, e2, e3⟩
      · rw [e1, e2]; exact .inl ⟨_, rfl, rfl⟩
      · rw [e1, e2]
        simp only [bind, Except.bind]
        rw [e3.provider]
        rcases peers_closeOn h hp ep'.provider q with ⟨e, a, b⟩ | ⟨u, u', a, b, d⟩
        · rw [a, b]
          exact .inl ⟨e, rfl, rfl⟩
        · rw [a, b]
          exact ih u u' d

theorem Peers.providerOf {c : Co} {L L' : List ℕ} {w w' : World} (h : Peers c L L' w w') {t t' : Trade} (ht : t.anon = t'.anon)
    (hE : c.E t.epic = true) : w.providerOf t = w'.providerOf t' := by
  unfold World.providerOf
  rw [(anon_same ht).1] at hE ⊢
  rcases h.epics t'.epic hE with ⟨e1, e2⟩ | ⟨ep, ep', e1, e2, e3⟩
  · rw [e1, e2]
  · rw [e1, e2]; simp only [Option.map_some, e3.provider]

/-- Two worlds of runs that look the same to the two strategies. -/
structure Company (c : Co) (w w' : World) : Prop where
  reg : RegInv w
  reg' : RegInv w'
  ok : EpicsOk w
  ok' : EpicsOk w'
  rel : ∃ L L', Peers c L L' w w'

theorem Company.swap {c : Co} {w w' : World} (h : Company c w w') : Company c.swap w' w := by
  obtain ⟨L, L', hr⟩ := h.rel
  exact ⟨h.reg', h.reg, h.ok', h.ok, L', L, hr.swap⟩

theorem peers_pairs {c : Co} {L L' : List ℕ} {w w' : World} (h : Peers c L L' w w') (p : ℕ) :
    List.Forall₂ (Pair L L') (L.filter (fun i => match w.trades[i]? with
        | none => false
        | some t => decide (w.providerOf t = some p) && !t.closed)).reverse
      (L'.filter (fun i => match w'.trades[i]? with
        | none => false
        | some t => decide (w'.providerOf t = some p) && !t.closed)).reverse := by
  apply List.rel_reverse
  apply forall₂_filter (pairs_self h.len)
  intro i j hp
  obtain ⟨t, t', h1, h2, h3, -, -, h6⟩ := h.twins i j hp
  rw [h1, h2]
  dsimp only
  rw [h.providerOf h3 h6, (anon_same h3).2.2.1]

theorem peers_append {c : Co} {L L' : List ℕ} {w w' : World} (h : Peers c L L' w w') (x y : Trade) :
    Peers c L L' { w with trades := w.trades ++ [x] } { w' with trades := w'.trades ++ [y] } := by
  refine ⟨h.epics, h.kinds, h.apart, h.apart', h.size, h.size', h.uniq, h.uniq', h.own, h.len, h.nodup, h.nodup', ?_⟩
  intro i j hp
  obtain ⟨t, t', h1, h2, h3, h4, h5, h6⟩ := h.twins i j hp
  refine ⟨t, t', ?_, ?_, h3, h4, h5, h6⟩
  · show (w.trades ++ [x])[i]? = _
    rw [List.getElem?_append_left (List.getElem?_eq_some_iff.mp h1).1]; exact h1
  · show (w'.trades ++ [y])[j]? = _
    rw [List.getElem?_append_left (List.getElem?_eq_some_iff.mp h2).1]; exact h2

theorem peers_register {c : Co} {L L' : List ℕ} {w w' : World} (h : Peers c L L' w w') {i j : ℕ} (ht : Fellow c w w' i j) (hi : i ∉ L)
    (hj : j ∉ L') (p : ℕ) : Peers c (L ++ [i]) (L' ++ [j]) (w.register p i (some c.s)) (w'.register p j (some c.s')) := by
  obtain ⟨a1, a2, a3, a4, -⟩ := register_eq w p i (some c.s)
  obtain ⟨b1, b2, b3, b4, -⟩ := register_eq w' p j (some c.s')
  obtain ⟨st, st', h1, h2, h3, h4, h5, h6, h7, h8⟩ := h.own
  dsimp only at a4 b4
  have r1 : (w.register p i (some c.s)).strategies.map Strategy.ref = w.strategies.map Strategy.ref := by
    rw [a4, map_modify_eq]; intro x; rfl
  have r2 : (w'.register p j (some c.s')).strategies.map Strategy.ref = w'.strategies.map Strategy.ref := by
    rw [b4, map_modify_eq]; intro x; rfl
  refine ⟨by rw [a2, b2]; exact h.epics, ?_, by rw [a2]; exact h.apart, by rw [b2]; exact h.apart', by rw [a4]; simpa using h.size, by rw [b4]; simpa using h.size', by rw [r1]; exact h.uniq,
    by rw [r2]; exact h.uniq', ?_, by simp [h.len], ?_, ?_, ?_⟩
  · intro e0 ep0 hE0 he0
    rw [a2] at he0
    rw [a3, b3, map_modify_eq, map_modify_eq]
    · exact h.kinds e0 ep0 hE0 he0
    · intro x; rfl
    · intro x; rfl
  · refine ⟨{ st with trades := st.trades ++ [i] }, { st' with trades := st'.trades ++ [j] }, ?_, ?_, ?_, ?_, h5, h6, h7, h8⟩
    · rw [a4]; simp [h1]
    · rw [b4]; simp [h2]
    · show st.trades ++ _ = _; rw [h3]
    · show st'.trades ++ _ = _; rw [h4]
  · exact List.nodup_append.mpr ⟨h.nodup, by simp, by intro a ha b hb; rw [List.mem_singleton.mp hb]; rintro rfl; exact hi ha⟩
  · exact List.nodup_append.mpr ⟨h.nodup', by simp, by intro a ha b hb; rw [List.mem_singleton.mp hb]; rintro rfl; exact hj ha⟩
  · intro x y hxy
    rw [Fellow, a1, b1]
    rcases pair_append h.len hxy with hp | ⟨rfl, rfl⟩
    · exact h.twins x y hp
    · exact ht

theorem openFromTick_other {k : Tick} {e : ℕ} {d : Option Dir} {q : ℤ} (s s' : ℕ) :
    Trade.openFromTick k e d q (some s') = (Trade.openFromTick k e d q (some s)).map (fun t => { t with strategy := some s' }) := by
  rcases d with _ | _ | _ <;> rfl

theorem company_open {c : Co} {w w' : World} (h : Company c w w') (e : ℕ) (hE : c.E e = true) (d : Option Dir) (q : ℤ) :
    (w.step (.openTrade e (some c.s) d q)).2 = (w'.step (.openTrade e (some c.s') d q)).2 ∧
    ∃ L L', Peers c L L' (w.step (.openTrade e (some c.s) d q)).1 (w'.step (.openTrade e (some c.s') d q)).1 := by
  obtain ⟨L, L', hr⟩ := h.rel
  obtain ⟨st, st', h1, h2, h3, h4, h5, h6, h7, h8⟩ := hr.own
  have hlt := (List.getElem?_eq_some_iff.mp h1).1
  have hlt' := (List.getElem?_eq_some_iff.mp h2).1
  simp only [World.step]
  rcases hr.epics e hE with ⟨e1, e2⟩ | ⟨ep, ep', e1, e2, e3⟩
  · rw [e1, e2]; exact ⟨rfl, L, L', hr⟩
  · rw [e1, e2]
    dsimp only
    rw [if_pos (by simpa using hlt), if_pos (by simpa using hlt'), openFromTick_other c.s c.s', e3.tick, e3.provider]
    rcases hn : Trade.openFromTick ep'.lastTick e d q (some c.s) with err | new
    · exact ⟨rfl, L, L', hr⟩
    · have hns : new.strategy = some c.s := (openFromTick_fresh hn).2.1
      have hne : new.epic = e := (openFromTick_fresh hn).1
      simp only [bind, Except.bind, Except.map]
      unfold World.providerOpen
      have hk : (w.providers[ep'.provider]?).map Provider.kind = (w'.providers[ep'.provider]?).map Provider.kind := by
        rw [← List.getElem?_map, ← List.getElem?_map, ← e3.provider]
        exact hr.kinds e ep hE e1
      rcases hpr : w.providers[ep'.provider]? with _ | pr
      · rw [hpr] at hk
        rcases hpr' : w'.providers[ep'.provider]? with _ | pr'
        · exact ⟨rfl, L, L', hr⟩
        · rw [hpr'] at hk; cases hk
      · rw [hpr] at hk
        rcases hpr' : w'.providers[ep'.provider]? with _ | pr'
        · rw [hpr'] at hk; cases hk
        · rw [hpr'] at hk
          simp only [Option.map_some, Option.some.injEq] at hk
          dsimp only
          rw [hk, hns]
          have fresh : ∀ (u u' : World) (n : Trade), Peers c L L' u u' → n.strategy = some c.s → n.epic = e → u.trades.length = w.trades.length →
              u'.trades.length = w'.trades.length → ∃ M M', Peers c M M'
                (({ u with trades := u.trades ++ [n] } : World).register ep'.provider u.trades.length (some c.s))
                (({ u' with trades := u'.trades ++ [{ n with strategy := some c.s' }] } : World).register ep'.provider u'.trades.length (some c.s')) := by
            intro u u' n hu hns hne hl hl'
            refine ⟨_, _, peers_register (peers_append hu n _) ⟨n, { n with strategy := some c.s' }, by simp, by simp, rfl, hns, rfl,
              by rw [hne]; exact hE⟩ ?_ ?_ ep'.provider⟩
            · intro hm
              have := h.reg.stratLt c.s st h1 _ (by rw [h3]; exact hm)
              omega
            · intro hm
              have := h.reg'.stratLt c.s' st' h2 _ (by rw [h4]; exact hm)
              omega
          cases pr'.kind with
          | custom => exact ⟨rfl, fresh w w' new hr hns hne rfl rfl⟩
          | backtests =>
            dsimp only
            have hp := peers_pairs hr ep'.provider
            have n1 := netLoop_own h.reg h1 hpr new hns
            have n2 := netLoop_own h.reg' h2 hpr' { new with strategy := some c.s' } rfl
            rw [h3] at n1
            rw [h4] at n2
            rcases peers_netLoop ep'.provider _ _ hp w w' new hr hns with ⟨err, a, b⟩ | ⟨u, u', n, a, b, hns', he', d⟩
            · rw [n1.trans a, n2.trans b]
              exact ⟨rfl, L, L', hr⟩
            · replace a := n1.trans a
              replace b := n2.trans b
              obtain ⟨l1, -, -⟩ := netLoop_others _ _ _ _ _ a
              obtain ⟨l2, -, -⟩ := netLoop_others _ _ _ _ _ b
              rw [a, b]
              simp only [bind, Except.bind]
              split_ifs
              · exact ⟨rfl, L, L', peers_append d n _⟩
              · exact ⟨rfl, fresh u u' n d hns' (he'.trans hne) l1 l2⟩

theorem peers_modTrade {c : Co} {L L' : List ℕ} {w w' : World} (h : Peers c L L' w w') {i j : ℕ} (hp : Pair L L' i j)
    (f : Trade → Trade) (hf : ∀ t : Trade, f t.anon = (f t).anon) (hs : ∀ t, (f t).strategy = t.strategy ∧ (f t).epic = t.epic) :
    Peers c L L' { w with trades := w.trades.modify i f } { w' with trades := w'.trades.modify j f } := by
  refine ⟨h.epics, h.kinds, h.apart, h.apart', h.size, h.size', h.uniq, h.uniq', h.own, h.len, h.nodup, h.nodup',
    fellows_modify h.nodup h.nodup' h.twins hp (f := f) (f' := f) hs hs ?_ rfl rfl⟩
  intro t t' _ _ ht
  rw [← hf, ← hf, ht]

theorem peers_modStrategy {c : Co} {L L' : List ℕ} {w w' : World} (h : Peers c L L' w w') (f f' : Strategy → Strategy)
    (hf : ∀ st, (f st).trades = st.trades ∧ (f st).ref = st.ref) (hg : ∀ st, (f' st).trades = st.trades ∧ (f' st).ref = st.ref)
    (hf' : ∀ st st' : Strategy, st.pausedUntil = st'.pausedUntil → st.stopped = st'.stopped →
      (f st).pausedUntil = (f' st').pausedUntil ∧ (f st).stopped = (f' st').stopped) :
    Peers c L L' (w.modStrategy c.s f) (w'.modStrategy c.s' f') := by
  obtain ⟨st, st', h1, h2, h3, h4, h5, h6, h7, h8⟩ := h.own
  refine ⟨h.epics, h.kinds, h.apart, h.apart', ?_, ?_, ?_, ?_, ?_, h.len, h.nodup, h.nodup', h.twins⟩
  · show (w.strategies.modify c.s f).length = _
    simpa using h.size
  · show (w'.strategies.modify c.s' f').length = _
    simpa using h.size'
  · show ∀ i : ℕ, ((w.strategies.modify c.s f).map Strategy.ref)[i]? = _ → _
    rw [map_modify_eq _ _ _ _ (fun x => (hf x).2)]
    exact h.uniq
  · show ∀ i : ℕ, ((w'.strategies.modify c.s' f').map Strategy.ref)[i]? = _ → _
    rw [map_modify_eq _ _ _ _ (fun x => (hg x).2)]
    exact h.uniq'
  · refine ⟨f st, f' st', ?_, ?_, by rw [(hf st).1, h3], by rw [(hg st').1, h4], (hf' st st' h5 h6).1, (hf' st st' h5 h6).2,
      by rw [(hf st).2, h7], by rw [(hg st').2, h8]⟩
    · show (w.strategies.modify c.s f)[c.s]? = _
      rw [List.getElem?_modify, h1]; simp
    · show (w'.strategies.modify c.s' f')[c.s']? = _
      rw [List.getElem?_modify, h2]; simp

/-! ## What others do -/

theorem KeepsOwn.peers {c : Co} {L L' : List ℕ} {w u w' : World} (h : KeepsOwn c.s L w u) (hr : Peers c L L' w w') : Peers c L L' u w' := by
  obtain ⟨st, st', h1, h2, h3, h4, h5, h6, h7, h8⟩ := hr.own
  obtain ⟨a, a1, a2, a3, a4⟩ := h.own st h1
  have hl : u.strategies.length = w.strategies.length := by simpa using congrArg List.length h.refs
  have href : a.ref = st.ref := by
    have := congrArg (fun l : List String => l[c.s]?) h.refs
    simpa [a1, h1] using this
  refine ⟨by rw [h.epics]; exact hr.epics, by rw [h.epics, h.kinds]; exact hr.kinds, by rw [h.epics]; exact hr.apart, hr.apart', hl.trans hr.size, hr.size', by rw [h.refs]; exact hr.uniq, hr.uniq',
    ⟨a, st', a1, h2, a2.trans h3, h4, a3.trans h5, a4.trans h6, href.trans h7, h8⟩, hr.len, hr.nodup, hr.nodup', ?_⟩
  intro i j hp
  obtain ⟨t, t', x, y, z, p, q, r⟩ := hr.twins i j hp
  obtain ⟨n, hn, -⟩ := hp
  obtain ⟨b, b1, b2⟩ := h.same i (List.mem_of_getElem? hn) t x
  refine ⟨b, t', b1, y, ?_, (blank_same b2).2.2.1.trans p, q, by rw [(blank_same b2).1]; exact r⟩
  rw [← z]
  unfold Trade.anon
  rw [b2]

theorem Company.left {c : Co} {w w' u : World} (h : Company c w w') (hs : WSteps False w u)
    (hk : ∀ st, w.strategies[c.s]? = some st → KeepsOwn c.s st.trades w u) : Company c u w' := by
  obtain ⟨L, L', hr⟩ := h.rel
  obtain ⟨st, st', h1, h2, h3, -⟩ := hr.own
  have := hk st h1
  rw [h3] at this
  exact ⟨WSteps.inv (fun a b ha hb => hb.regInv ha) hs h.reg, h.reg', hs.epicsOk h.ok, h.ok', L, L', this.peers hr⟩

theorem Company.log {c : Co} {w w' : World} (h : Company c w w') (l l' : List Event) : Company c { w with log := l } { w' with log := l' } := by
  obtain ⟨L, L', hr⟩ := h.rel
  exact ⟨h.reg.quiet ⟨rfl, rfl, rfl, KeptAll.refl _⟩ rfl, h.reg'.quiet ⟨rfl, rfl, rfl, KeptAll.refl _⟩ rfl, h.ok, h.ok',
    L, L', hr.epics, hr.kinds, hr.apart, hr.apart', hr.size, hr.size', hr.uniq, hr.uniq', hr.own, hr.len, hr.nodup, hr.nodup', hr.twins⟩

end
end Estrade
