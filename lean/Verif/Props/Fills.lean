import Verif.Lemmas.Openings
import Verif.Props.Threads
import Verif.Props.Results

/-!
# C58, C59: prices and times of transactions
-/

set_option linter.style.haveILetI false
set_option linter.unusedSectionVars false
set_option autoImplicit false

namespace Estrade

/-- Spec: opening and closes of a trade happened on the quotes `Q`, one after the other: `i` is the position of the
quote of the opening, `is` the positions of the quotes of the closes. -/
def Spec.Filled (Q : List Tick) (t : Trade) : Prop :=
  ∃ (i : ℕ) (is : List ℕ), (i :: is).Pairwise (· ≤ ·) ∧
    (∃ k, Q[i]? = some k ∧ t.dt = k.dt ∧ t.openValue = Spec.entryQuote t.dir k) ∧
    List.Forall₂ (fun (c : TradeClose) (j : ℕ) => ∃ k, Q[j]? = some k ∧ c.dt = k.dt ∧
      (0 < c.qty → c.closeValue = Spec.exitQuote t.dir k)) t.closes is

section
variable [Arith]

theorem filled_append {Q R : List Tick} {t : Trade} (h : Spec.Filled Q t) : Spec.Filled (Q ++ R) t := by
  have hg : ∀ (j : ℕ) k, Q[j]? = some k → (Q ++ R)[j]? = some k := by
    intro j k hj
    rw [List.getElem?_append_left (getElem?_lt hj)]; exact hj
  obtain ⟨i, is, h1, ⟨k, h2, h3⟩, h4⟩ := h
  refine ⟨i, is, h1, ⟨k, hg _ _ h2, h3⟩, h4.imp ?_⟩
  rintro c j ⟨k, g1, g2⟩
  exact ⟨k, hg _ _ g1, g2⟩

theorem filled_congr {Q : List Tick} {t t' : Trade} (h1 : t'.dt = t.dt) (h2 : t'.openValue = t.openValue)
    (h3 : t'.dir = t.dir) (h4 : t'.closes = t.closes) (h : Spec.Filled Q t) : Spec.Filled Q t' := by
  unfold Spec.Filled at h ⊢
  rw [h1, h2, h3, h4]; exact h

theorem update_frame (t : Trade) (v : ℚ) : (t.update v).dt = t.dt ∧ (t.update v).openValue = t.openValue ∧
    (t.update v).dir = t.dir ∧ (t.update v).closes = t.closes ∧ (t.update v).epic = t.epic := by
  unfold Trade.update Trade.updateMinMax
  dsimp only
  split_ifs <;> exact ⟨rfl, rfl, rfl, rfl, rfl⟩

theorem update_curClose (t : Trade) (v : ℚ) (h : t.openedQty ≠ 0) : (t.update v).curClose = v := by
  unfold Trade.update Trade.updateMinMax Trade.closed
  rw [if_neg (by simpa using h)]
  dsimp only
  split_ifs <;> rfl

theorem filled_update (L : List Event) (t : Trade) (v : ℚ) (h : Spec.Filled (Spec.quotes t.epic L) t) :
    Spec.Filled (Spec.quotes (t.update v).epic L) (t.update v) := by
  obtain ⟨h1, h2, h3, h4, h5⟩ := update_frame t v
  rw [h5]
  exact filled_congr h1 h2 h3 h4 h

theorem filled_quoteInv (E : List Epic) (L : List Event)
    (hI : LastShown E L) :
    QuoteInv False E (fun t => Spec.Filled (Spec.quotes t.epic L) t) := by
  refine ⟨?_, ?_, fun v => v.elim, ?_, ?_⟩
  · intro e ep d q s t n hep ht _ _
    have hlast := hI e ep hep
    rw [List.getLast?_eq_getElem?] at hlast
    unfold Trade.openFromTick at ht
    split at ht
    · injection ht with ht; subst ht
      exact ⟨_, [], by simp, ⟨ep.lastTick, hlast, rfl, rfl⟩, .nil⟩
    · injection ht with ht; subst ht
      exact ⟨_, [], by simp, ⟨ep.lastTick, hlast, rfl, rfl⟩, .nil⟩
    · cases ht
  · intro t ep q hep _ h
    have hlast := hI _ ep hep
    rw [List.getLast?_eq_getElem?] at hlast
    obtain ⟨h1, h2, h3, h4, h5⟩ := update_frame t (Spec.exitQuote t.dir ep.lastTick)
    show Spec.Filled (Spec.quotes (t.closeFromTick ep.lastTick q).epic L) _
    unfold Trade.closeFromTick
    rw [updateFromTick_eq]
    set u := t.update (Spec.exitQuote t.dir ep.lastTick) with hu
    show Spec.Filled (Spec.quotes u.epic L) _
    rw [h5]
    obtain ⟨i, is, g1, ⟨k, g2, g3⟩, g4⟩ := h
    refine ⟨i, is ++ [(Spec.quotes t.epic L).length - 1], ?_, ⟨k, g2, ?_⟩, ?_⟩
    · rw [← List.cons_append, List.pairwise_append]
      refine ⟨g1, by simp, ?_⟩
      intro a ha b hb
      rw [List.mem_singleton.mp hb]
      have : a < (Spec.quotes t.epic L).length := by
        rcases List.mem_cons.mp ha with rfl | ha
        · exact getElem?_lt g2
        · obtain ⟨n, hn, rfl⟩ := List.getElem_of_mem ha
          obtain ⟨k', hk, -⟩ := (List.forall₂_iff_get.mp g4).2 n (by rw [g4.length_eq]; exact hn) hn
          exact getElem?_lt hk
      omega
    · show u.dt = _ ∧ u.openValue = Spec.entryQuote u.dir k
      rw [h1, h2, h3]; exact g3
    · show List.Forall₂ _ (u.closes ++ [_]) _
      rw [h4]
      refine List.rel_append ?_ ?_
      · show List.Forall₂ (fun (c : TradeClose) (j : ℕ) => ∃ k, (Spec.quotes t.epic L)[j]? = some k ∧ c.dt = k.dt ∧
          (0 < c.qty → c.closeValue = Spec.exitQuote u.dir k)) _ _
        rw [h3]; exact g4
      · refine .cons ⟨ep.lastTick, hlast, rfl, ?_⟩ .nil
        intro hpos
        show u.curClose = Spec.exitQuote u.dir _
        rw [h3]
        refine update_curClose t _ (fun h0 => ?_)
        have hc : u.openedQty = 0 := by rw [hu, Trade.update_openedQty]; exact h0
        change 0 < u.closeQty q at hpos
        unfold Trade.closeQty at hpos
        dsimp only at hpos
        rw [hc] at hpos
        split_ifs at hpos <;> omega
  · intro t st h; exact filled_congr rfl rfl rfl rfl h
  · intro t k st h
    obtain ⟨i, is, g1, g2, g3⟩ := h
    refine ⟨i, is, g1, g2, ?_⟩
    rw [List.forall₂_iff_get] at g3 ⊢
    refine ⟨by simpa using g3.1, fun n hn hn' => ?_⟩
    have := g3.2 n (by simpa using hn) hn'
    simp only [List.get_eq_getElem, List.getElem_modify] at this ⊢
    split_ifs
    · exact this
    · exact this

theorem run_filled {env : Env} {w0 : World} (h0 : w0.Init) (l : List Cmd) (hd : Spec.NoDirectClose env l) :
    ∀ t ∈ (w0.runCmds env l).trades, Spec.Filled (Spec.quotes t.epic (w0.runCmds env l).log) t := by
  refine (run_quote (P := fun _ L t => Spec.Filled (Spec.quotes t.epic L) t)
    (I := LastShown) filled_quoteInv (fun _ => filled_update) ?_ ?_ ?_ hd.1 l ?_ w0 ⟨.init h0, ?_⟩).2
  · intro E L s e cb h
    exact ⟨h.note s e cb, fun t ht => by rw [quotes_note]; exact ht⟩
  · intro E L e ep k hep hlt h
    exact ⟨h.accept hep _, fun t ht => by rw [quotes_accept]; exact filled_append ht⟩
  · intro E E' L hk h
    exact ⟨h.kept hk, fun _ ht => ht⟩
  · intro o ho
    cases o with
    | close i v dt q => exact hd.2 i v dt q ho
    | _ => trivial
  · intro t ht; rw [h0.trades] at ht; cases ht

/-! ## C58 -/

/-- C58: in a run that closes trades only through epics, strategies and providers, every trade was opened on a quote of
its epic (the ask for a BUY, the bid for a SELL) at the time of that quote, and its closes happened in order on that
quote or later ones, at their times, every close of some quantity at the opposite side of the quote.  The quotes are
the placeholder 0/0 of 1900-01-01 followed by the accepted ticks. -/
theorem C58_fills {env : Env} {w0 : World} (h0 : w0.Init) (l : List Cmd) (hd : Spec.NoDirectClose env l) (t : Trade) (ht : t ∈ (w0.runCmds env l).trades) :
    Spec.Filled (Spec.quotes t.epic (w0.runCmds env l).log) t :=
  run_filled h0 l hd t ht

/-- C58, openings: in every reachable state (direct closes included) each trade was opened at the entry side of a quote
its epic had shown and at the time of that quote, and trades of one epic were opened on quotes in the order of their
creation. -/
theorem C58_openings {env : Env} {w : World} (hw : Reachable env w) :
    ∃ pos : ℕ → ℕ,
      (∀ (i : ℕ) t, w.trades[i]? = some t → ∃ k, (Spec.quotes t.epic w.log)[pos i]? = some k ∧ t.dt = k.dt ∧
        t.openValue = Spec.entryQuote t.dir k) ∧
      ∀ (i j : ℕ) t u, i < j → w.trades[i]? = some t → w.trades[j]? = some u → t.epic = u.epic → pos i ≤ pos j := by
  obtain ⟨w0, h0, l, rfl⟩ := hw
  obtain ⟨-, pos, h⟩ := runCmds_openInv (env := env) h0 l
  exact ⟨pos, h.quote, h.mono⟩

/-- C58: the placeholder is a quote like any other: a trade opened before the first tick of its epic is filled at 0, at
the first instant of 1900. -/
theorem C58_before_first_tick {w : World} (h : w.Init) (e : ℕ) (he : e < w.epics.length) (d : Dir) (q : ℤ) (hq : 0 < q) :
    ∃ t, (w.step (.openTrade e none (some d) q)).1.trades = [t] ∧ t.openValue = 0 ∧ t.dt.wall = midnight 1900 1 1 ∧
      t.openedQty = q ∧ (w.step (.openTrade e none (some d) q)).2 = none := by
  obtain ⟨ref, z, o, c, td, hd, p, hp, hep⟩ := h.epics _ (List.getElem_mem he)
  obtain ⟨k, hk⟩ := h.providers _ (List.getElem_mem hp)
  have hE : w.epics[e]? = some (Epic.new ref z o c td hd p) := by rw [List.getElem?_eq_getElem he, hep]
  have hPr : w.providers[p]? = some (Provider.new k) := by rw [List.getElem?_eq_getElem hp, hk]
  have hPr' : w.providers[(Epic.new ref z o c td hd p).provider]? = some (Provider.new k) := hPr
  have hl : (Epic.new ref z o c td hd p).lastTick = Tick.epoch := rfl
  have hq' : ¬ q ≤ 0 := by omega
  cases d <;> cases k <;>
    simp [World.step, hE, hl, Trade.openFromTick, World.providerOpen, hPr', Provider.new, bind, Except.bind,
      World.openedTrades, netLoop, Trade.new, hq', orKeep, h.trades, (register_epics _ _ _ _).2.2, Tick.epoch,
      Trade.openedQty, Trade.closedQty]

/-! ## C59 -/

/-- C59: times of a trade that was opened on an accepted tick: opening, closes in their order, last tick of the epic,
never decreasing on the clock of the epic. -/
theorem C59_chronology {env : Env} {w0 : World} (h0 : w0.Init) (l : List Cmd) (hd : Spec.NoDirectClose env l) (t : Trade) (ht : t ∈ (w0.runCmds env l).trades)
    (hopen : t.dt ≠ Tick.epoch.dt) (ep : Epic) (hep : (w0.runCmds env l).epics[t.epic]? = some ep) :
    (t.dt.wall :: t.closes.map (fun c => c.dt.wall) ++ [ep.lastTick.dt.wall]).Pairwise (· ≤ ·) := by
  obtain ⟨i, is, g1, ⟨k, g2, g3, -⟩, g4⟩ := run_filled h0 l hd t ht
  have hinv := reachable_epicInv ⟨w0, h0, l, rfl⟩ t.epic ep hep
  set Q := Spec.quotes t.epic (w0.runCmds env l).log with hQ
  have hlast : Q.getLast? = some ep.lastTick := quotes_last hinv
  have hi : 1 ≤ i := by
    by_contra hc
    have : i = 0 := by omega
    subst this
    injection g2 with g2
    exact hopen (by rw [g3, ← g2])
  have hmono : ∀ (a b : ℕ) x y, 1 ≤ a → a ≤ b → Q[a]? = some x → Q[b]? = some y → x.dt.wall ≤ y.dt.wall := by
    intro a b x y h1 hab hx hy
    obtain ⟨a', rfl⟩ : ∃ a', a = a' + 1 := ⟨a - 1, by omega⟩
    obtain ⟨b', rfl⟩ : ∃ b', b = b' + 1 := ⟨b - 1, by omega⟩
    have hx' : (Spec.acceptedOn t.epic (w0.runCmds env l).log)[a']? = some x := hx
    have hy' : (Spec.acceptedOn t.epic (w0.runCmds env l).log)[b']? = some y := hy
    obtain ⟨ha, rfl⟩ := List.getElem?_eq_some_iff.mp hx'
    obtain ⟨hb, rfl⟩ := List.getElem?_eq_some_iff.mp hy'
    rcases Nat.lt_or_ge a' b' with hlt | hge
    · exact List.pairwise_iff_getElem.mp hinv.sorted a' b' ha hb hlt
    · have : a' = b' := by omega
      subst this; exact le_refl _
  -- the walls are those of the quotes at the positions
  let W : ℕ → ℤ := fun j => ((Q[j]?).map (fun k => k.dt.wall)).getD 0
  have hW : ∀ (j : ℕ) k, Q[j]? = some k → W j = k.dt.wall := by intro j k h; simp only [W, h]; rfl
  have hlen : Q[Q.length - 1]? = some ep.lastTick := by rw [← List.getLast?_eq_getElem?]; exact hlast
  obtain ⟨hmap, hvalid⟩ : t.closes.map (fun c => c.dt.wall) = is.map W ∧ ∀ j ∈ is, ∃ k, Q[j]? = some k := by
    clear g1
    generalize t.closes = cl at g4
    induction g4 with
    | nil => exact ⟨rfl, fun j hj => by cases hj⟩
    | cons h _ ih =>
      obtain ⟨k, h1, h2, -⟩ := h
      refine ⟨by rw [List.map_cons, List.map_cons, ih.1, hW _ _ h1, h2], fun j hj => ?_⟩
      rcases List.mem_cons.mp hj with rfl | hj
      · exact ⟨k, h1⟩
      · exact ih.2 j hj
  have hall : ∀ j ∈ i :: is, 1 ≤ j ∧ ∃ k, Q[j]? = some k := by
    intro j hj
    rcases List.mem_cons.mp hj with rfl | hj
    · exact ⟨hi, k, g2⟩
    · exact ⟨le_trans hi (List.rel_of_pairwise_cons g1 hj), hvalid j hj⟩
  have hlist : t.dt.wall :: t.closes.map (fun c => c.dt.wall) ++ [ep.lastTick.dt.wall] =
      (i :: is).map W ++ [ep.lastTick.dt.wall] := by
    rw [hmap, List.map_cons, hW _ _ g2, g3]
  rw [hlist, List.pairwise_append]
  refine ⟨?_, by simp, ?_⟩
  · rw [List.pairwise_map]
    refine g1.imp_of_mem ?_
    intro a b ha hb hab
    obtain ⟨h1, x, hx⟩ := hall a ha
    obtain ⟨-, y, hy⟩ := hall b hb
    rw [hW _ _ hx, hW _ _ hy]
    exact hmono a b x y h1 hab hx hy
  · intro a ha b hb
    rw [List.mem_singleton.mp hb]
    obtain ⟨j, hj, rfl⟩ := List.mem_map.mp ha
    obtain ⟨h1, x, hx⟩ := hall j hj
    rw [hW _ _ hx]
    exact hmono j _ x _ h1 (by have := getElem?_lt hx; omega) hx hlen

/-! ## C36 in reachable states -/

/-- Order of the accepted ticks by position in `Spec.quotes`. -/
theorem quotes_sorted {ep : Epic} {e : ℕ} {L : List Event} (h : EpicInv ep (Spec.acceptedOn e L)) (a b : ℕ) (x y : Tick)
    (ha : 1 ≤ a) (hab : a ≤ b) (hx : (Spec.quotes e L)[a]? = some x) (hy : (Spec.quotes e L)[b]? = some y) :
    x.dt.wall ≤ y.dt.wall ∧ x = Spec.localTick ep.zone x ∧ y = Spec.localTick ep.zone y := by
  obtain ⟨a', rfl⟩ : ∃ a', a = a' + 1 := ⟨a - 1, by omega⟩
  obtain ⟨b', rfl⟩ : ∃ b', b = b' + 1 := ⟨b - 1, by omega⟩
  have hx' : (Spec.acceptedOn e L)[a']? = some x := hx
  have hy' : (Spec.acceptedOn e L)[b']? = some y := hy
  refine ⟨?_, h.conv x (List.mem_of_getElem? hx'), h.conv y (List.mem_of_getElem? hy')⟩
  obtain ⟨ha, rfl⟩ := List.getElem?_eq_some_iff.mp hx'
  obtain ⟨hb, rfl⟩ := List.getElem?_eq_some_iff.mp hy'
  rcases Nat.lt_or_ge a' b' with hlt | hge
  · exact List.pairwise_iff_getElem.mp h.sorted a' b' ha hb hlt
  · have : a' = b' := by omega
    subst this; exact le_refl _

/-- Spec: the wall clock of the zone never goes back. -/
def Spec.SteadyClock (z : Zone) : Prop := ∀ u v, u + z.off u ≤ v + z.off v → u ≤ v

/-- C36 with `only_after` in every reachable state, for a strategy that trades one epic: the date filter is exact when
`only_after` is a time on the epic's clock, or when that clock never goes back.  Missing for the full statement:
strategies that trade several epics (`C36_false`), trades opened before the first tick. -/
theorem C36_one_epic_partial {env : Env} {w : World} (hw : Reachable env w) {s : ℕ} {st : Strategy}
    (hs : w.strategies[s]? = some st) {e : ℕ} {ep : Epic} (hep : w.epics[e]? = some ep)
    (hone : ∀ i ∈ st.trades, ∀ t, w.trades[i]? = some t → t.epic = e ∧ t.dt ≠ Tick.epoch.dt) (epics : Option (List ℕ))
    (openOnly : Bool) (d : DT) (hd : d.tz = ep.zone.id ∨ Spec.SteadyClock ep.zone) :
    let own := st.trades.filterMap (fun i => w.trades[i]?)
    getTrades own epics openOnly (some d) =
      own.reverse.filter (fun t => Spec.selected epics openOnly t && Spec.notBefore (some d) t) := by
  intro own
  obtain ⟨pos, h1, h2⟩ := C58_openings hw
  have hinv := reachable_epicInv hw e ep hep
  have hreg := hw.regInv
  -- every own trade carries a time on the clock of the epic, at a position after the placeholder
  have hpos : ∀ i ∈ st.trades, ∀ t, w.trades[i]? = some t →
      ∃ k, (Spec.quotes e w.log)[pos i]? = some k ∧ t.dt = k.dt ∧ 1 ≤ pos i := by
    intro i hi t ht
    obtain ⟨k, g1, g2, -⟩ := h1 i t ht
    obtain ⟨o1, o2⟩ := hone i hi t ht
    rw [o1] at g1
    refine ⟨k, g1, g2, ?_⟩
    by_contra hc
    have h0 : pos i = 0 := by omega
    rw [h0] at g1
    injection g1 with g1
    exact o2 (by rw [g2, ← g1])
  have hclock : ∀ t ∈ own, t.dt = ⟨t.dt.utc, t.dt.utc + ep.zone.off t.dt.utc, ep.zone.id⟩ := by
    intro t ht
    obtain ⟨i, hi, hti⟩ := List.mem_filterMap.mp ht
    obtain ⟨k, g1, g2, g3⟩ := hpos i hi t hti
    have := (quotes_sorted hinv _ _ k k g3 le_rfl g1 g1).2.1
    rw [g2, this]; rfl
  have hwall : own.Pairwise (fun a b => a.dt.wall ≤ b.dt.wall) := by
    have hinc := hreg.stratInc s st hs
    rw [List.pairwise_filterMap]
    refine hinc.imp_of_mem ?_
    intro i j hi hj hij t ht u hu
    obtain ⟨k, g1, g2, g3⟩ := hpos i hi t ht
    obtain ⟨k', g1', g2', g3'⟩ := hpos j hj u hu
    rw [g2, g2']
    exact (quotes_sorted hinv _ _ k k' g3 (h2 i j t u hij ht hu
      (by rw [(hone i hi t ht).1, (hone j hj u hu).1])) g1 g1').1
  by_cases htz : d.tz = ep.zone.id
  · refine C36_filters_partial own epics openOnly d DT.wall ?_ hwall
    intro t ht
    have : t.dt.tz = d.tz := by rw [hclock t ht]; exact htz.symm
    unfold DT.lt
    rw [if_pos this]
  · have hst := hd.resolve_left htz
    refine C36_filters_partial own epics openOnly d DT.utc ?_ ?_
    · intro t ht
      have : t.dt.tz ≠ d.tz := by rw [hclock t ht]; exact fun h => htz h.symm
      unfold DT.lt
      rw [if_neg this]
    · refine hwall.imp_of_mem ?_
      intro a b ha hb hab
      rw [hclock a ha, hclock b hb] at hab
      exact hst _ _ hab

end

/-! ## Concrete cases -/

/-- Buy 3 at the ask of the first tick, sell 1 on the second (netting), close the rest on the third; a second trade
opened before the first tick of the other epic. -/
def Fills.prog : List Cmd :=
  [.addStrategy 0 0, .tick 0 (Demo.tk 480 10 12), .op (.openTrade 0 (some 0) (some .buy) 3), .tick 0 (Demo.tk 481 13 14),
   .op (.openTrade 0 (some 0) (some .sell) 1), .tick 0 (Demo.tk 482 15 18), .op (.closeTrade 0 0 none),
   .op (.openTrade 1 none (some .buy) 2)]

example [Arith] : Spec.NoDirectClose Demo.quiet Fills.prog :=
  ⟨fun _ _ _ _ => trivial, by intro i v dt q h; simp [Fills.prog] at h⟩

example : letI := Arith.exact
    let w := Demo.world.runCmds Demo.quiet Fills.prog
    w.trades.map (fun t => (t.openValue, t.closes.map (fun c => (c.qty, c.closeValue, c.dt.wall)))) =
      [(12, [(1, 13, Demo.monday + 481 * minUs), (2, 15, Demo.monday + 482 * minUs)]), (13, []), (0, [])] ∧
    w.trades.map (fun t => decide (t.dt ≠ Tick.epoch.dt)) = [true, true, false] := by decide +kernel

/-- A direct `trade.close` fills at any price: the hypothesis of C58 is needed. -/
example : letI := Arith.exact
    let w := Demo.world.runCmds Demo.quiet [.tick 0 (Demo.tk 480 10 12), .op (.openTrade 0 none (some .buy) 3),
      .op (.close 0 1000 (Demo.tk 480 10 12).dt none)]
    w.trades.map Trade.result = [2964] ∧ Spec.acceptedOn 0 w.log = [Demo.tk 480 10 12] := by decide +kernel

/-- `get_trades(only_after=08:01)` of a strategy on one epic with trades of 08:00, 08:01 and 08:02. -/
example : letI := Arith.exact
    let w := Demo.world.runCmds Demo.quiet [.addStrategy 0 0, .tick 0 (Demo.tk 480 10 12),
      .op (.openTrade 0 (some 0) (some .buy) 3), .tick 0 (Demo.tk 481 11 12), .op (.openTrade 0 (some 0) (some .buy) 2),
      .tick 0 (Demo.tk 482 9 12), .op (.openTrade 0 (some 0) (some .buy) 1)]
    let own := ((w.strategies[0]?).elim [] Strategy.trades).filterMap (fun i => w.trades[i]?)
    own.map Trade.openQty = [3, 2, 1] ∧ own.all (fun t => decide (t.epic = 0 ∧ t.dt ≠ Tick.epoch.dt)) ∧
    (getTrades own none true (some (Demo.tk 481 0 0).dt)).map Trade.openQty = [1, 2] := by decide +kernel

example : Spec.SteadyClock Zone.utc ∧ Spec.SteadyClock Zone.saoPaulo2018 := by
  constructor
  · intro u v h; simpa [Zone.utc] using h
  · intro u v h
    simp only [Zone.saoPaulo2018] at h
    generalize midnight 2018 11 4 = m at h
    unfold hourUs minUs secUs at h
    split_ifs at h <;> omega

end Estrade
