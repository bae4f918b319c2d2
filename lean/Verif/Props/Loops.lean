import Verif.Lemmas.Lazy

/-!
# C96: loops over `get_trades` while trades are opened and closed
-/

set_option linter.style.haveILetI false
set_option linter.unusedSectionVars false
set_option autoImplicit false

namespace Estrade

section
variable [Arith]

/-- Spec: `w'` comes after `w`: strategies have the trades they had, perhaps followed by others; trades keep epic and date, and closed ones are
closed. -/
structure Spec.Later (w w' : World) : Prop where
  lists : ∀ (s : ℕ) st, w.strategies[s]? = some st → ∃ st', w'.strategies[s]? = some st' ∧ st.trades <+: st'.trades
  trades : ∀ (i : ℕ) t, w.trades[i]? = some t → ∃ t', w'.trades[i]? = some t' ∧ t'.epic = t.epic ∧ t'.dt = t.dt ∧
    (¬ Spec.IsOpen t → ¬ Spec.IsOpen t')

theorem Spec.Later.refl (w : World) : Spec.Later w w :=
  ⟨fun _ st h => ⟨st, h, List.prefix_refl _⟩, fun _ t h => ⟨t, h, rfl, rfl, id⟩⟩

theorem later_of_steps {w w' : World} (hw : Sound w) (h : WSteps True w w') : Spec.Later w w' := by
  have hg := WSteps.inv (V := True) (I := fun u => Grows w u) (fun a b ha hb => ha.trans hb.grows) h (Grows.refl w)
  refine ⟨hg.strat, fun i t ht => ?_⟩
  obtain ⟨t', h1, h2⟩ := hg.kept i t ht
  refine ⟨t', h1, h2.epic, h2.dt, fun hc => ?_⟩
  rw [isOpen_iff, not_not] at hc ⊢
  obtain ⟨u, h3, h4⟩ := h.stayShut hw i t ht (t.closed_iff.mpr hc)
  rw [h1] at h3; injection h3 with h3; subst h3
  exact t'.closed_iff.mp h4

/-- C96: in a run with non-negative quantities every state comes after the earlier ones. -/
theorem C96_states {env : Env} {w : World} (hw : Spec.ValidRun env w) (henv : env.Valid) (l : List Cmd) (hl : ∀ c ∈ l, c.Valid) :
    Spec.Later w (w.runCmds env l) := by
  obtain ⟨w0, h0, hv, l0, hl0, rfl⟩ := hw
  have hs : Sound (w0.runCmds env l0) :=
    (Sound.init h0).wsteps (runCmds_steps (fun _ => hv) l0 w0 (Init.epicsOk h0) (fun _ => hl0))
  exact later_of_steps hs (runCmds_steps (fun _ => henv) l _ hs.epics (fun _ => hl))

theorem Begins.of_later {s : ℕ} {w w' : World} {st : Strategy} (hs : w.strategies[s]? = some st)
    (hex : ∀ i ∈ st.trades, i < w.trades.length) (h : Spec.Later w w') : Begins s st.trades w' := by
  obtain ⟨st', h1, h2⟩ := h.lists s st hs
  refine ⟨st', h1, h2, fun i hi => ?_⟩
  obtain ⟨t', h3, -⟩ := h.trades i _ (List.getElem?_eq_getElem (hex i hi))
  exact (List.getElem?_eq_some_iff.mp h3).1

theorem Spec.Later.selected {w w' : World} (h : Spec.Later w w') {epics : Option (List ℕ)} {openOnly : Bool} {i : ℕ} {t t' : Trade}
    (ht : w.trades[i]? = some t) (ht' : w'.trades[i]? = some t') (hn : Spec.selected epics openOnly t = false) :
    Spec.selected epics openOnly t' = false := by
  obtain ⟨u, h1, h2, -, h4⟩ := h.trades i t ht
  rw [ht'] at h1; injection h1 with h1; subst h1
  unfold Spec.selected at hn ⊢
  rw [h2]
  by_cases ho : Spec.IsOpen t
  · rw [decide_eq_true ho] at hn
    rw [Bool.and_eq_false_iff] at hn ⊢
    refine hn.imp id (fun hn => ?_)
    simp at hn
  · rw [decide_eq_false ho] at hn
    rw [decide_eq_false (h4 ho)]
    exact hn

/-- C96: a generator of `get_trades`, asked for the first time in state `w` and later in the states `ws`.  It never raises.  It gives trades the strategy
had at the first question, never later ones; latest first, each place of the list at most once; each satisfies the conditions when it is
given; after the end it gives nothing.  When it ends, every trade that still satisfies the conditions has been given, unless one after it was
opened before `only_after`. -/
theorem C96_items (g : Gen) (hg : g.left = none) (w : World) (st : Strategy) (hs : w.strategies[g.strategy]? = some st)
    (hex : ∀ i ∈ st.trades, i < w.trades.length) (ws : List World) (hws : (w :: ws).Pairwise Spec.Later) :
    ∃ answers g', g.calls (w :: ws) = .ok (answers, g') ∧ answers.length = ws.length + 1 ∧
      (answers.filterMap id).Sublist st.trades.reverse ∧
      (∀ (k : ℕ) w' i, (w :: ws)[k]? = some w' → answers[k]? = some (some i) →
        ∃ t, w'.trades[i]? = some t ∧ Spec.selected g.epics g.openOnly t = true ∧ Spec.notBefore g.onlyAfter t = true) ∧
      (∀ k k' : ℕ, answers[k]? = some none → k ≤ k' → k' < answers.length → answers[k']? = some none) ∧
      ∀ (k : ℕ) w', (w :: ws)[k]? = some w' → answers[k]? = some none →
        ∀ (j : ℕ) i t, st.trades[j]? = some i → w'.trades[i]? = some t → Spec.selected g.epics g.openOnly t = true →
          some i ∈ answers.take k ∨
          ∃ (c i' : ℕ) (t' : Trade), j ≤ c ∧ st.trades[c]? = some i' ∧ w.trades[i']? = some t' ∧ Spec.notBefore g.onlyAfter t' = false := by
  have hfirst : ∀ w' ∈ w :: ws, Spec.Later w w' := by
    intro w' hw'
    rcases List.mem_cons.mp hw' with rfl | hw'
    · exact .refl _
    · exact List.rel_of_pairwise_cons hws hw'
  obtain ⟨as, g', h1, h2⟩ := calls_spec st.trades (w :: ws) { g with left := some st.trades.length } st.trades.length le_rfl
    (fun w' hw' => Begins.of_later hs hex (hfirst w' hw')) rfl
  rw [← calls_fresh g w ws hs hg] at h1
  refine ⟨as, g', h1, h2.length, by simpa using h2.sub, h2.sel, h2.stop, ?_⟩
  intro k w' hk hnone j i t hj ht hsel
  have hjlt := (List.getElem?_eq_some_iff.mp hj).1
  rcases h2.all k hnone j i hjlt hj with h | ⟨k', x, t', q1, q2, q3, q4⟩ | ⟨k', x, c, i', t', q1, q2, q3, q4, q5, -, q6⟩
  · exact .inl h
  · exfalso
    have hl : Spec.Later x w' := by
      rcases Nat.lt_or_eq_of_le q1 with hlt | rfl
      · obtain ⟨a1, a2⟩ := List.getElem?_eq_some_iff.mp q2
        obtain ⟨b1, b2⟩ := List.getElem?_eq_some_iff.mp hk
        have := List.pairwise_iff_getElem.mp hws k' k a1 b1 hlt
        rw [a2, b2] at this
        exact this
      · rw [hk] at q2; injection q2 with q2; subst q2; exact .refl _
    have := hl.selected q3 ht q4
    change Spec.selected g.epics g.openOnly t = false at this
    rw [hsel] at this; cases this
  · right
    have hi' := hex i' (List.mem_of_getElem? q4)
    obtain ⟨u, u1, -, u3, -⟩ := (hfirst x (List.mem_of_getElem? q2)).trades i' _ (List.getElem?_eq_getElem hi')
    rw [q5] at u1; injection u1 with u1; subst u1
    refine ⟨c, i', _, q3, q4, List.getElem?_eq_getElem hi', ?_⟩
    unfold Spec.notBefore at q6 ⊢
    rw [← u3]; exact q6

/-! ## All at once -/

theorem drain_left (g : Gen) (w : World) {own : List ℕ} (hw : Begins g.strategy own w) : ∀ (n m : ℕ), n ≤ own.length → n < m →
    ∃ l g', ({ g with left := some n } : Gen).drain w m = .ok (l, g') ∧ g' = { g with left := some 0 } ∧
      l.filterMap (fun i => w.trades[i]?) =
        getTrades.go g.epics g.openOnly g.onlyAfter (((own.take n).reverse).filterMap (fun i => w.trades[i]?)) := by
  obtain ⟨-, -, -, hex⟩ := id hw
  have hnx : ∀ n, n ≤ own.length → ({ g with left := some n } : Gen).next w =
      (({ g with left := some n } : Gen).scan w own n).map (fun r => (r.1, { g with left := some r.2 })) :=
    fun n hn => next_left { g with left := some n } w hw hn rfl
  have hsc : ∀ a n, ({ g with left := a } : Gen).scan w own n = g.scan w own n := by
    intro a n
    induction n with
    | zero => rfl
    | succ n ih => unfold Gen.scan; rw [ih]
  intro n
  induction n with
  | zero =>
    intro m hn hm
    obtain ⟨m, rfl⟩ : ∃ k, m = k + 1 := ⟨m - 1, by omega⟩
    refine ⟨[], { g with left := some 0 }, ?_, rfl, rfl⟩
    unfold Gen.drain
    rw [hnx 0 hn]
    rfl
  | succ n ih =>
    intro m hn hm
    obtain ⟨m, rfl⟩ : ∃ k, m = k + 1 := ⟨m - 1, by omega⟩
    have hlt : n < own.length := by omega
    have h1 : own[n]? = some own[n] := List.getElem?_eq_getElem hlt
    have h2 := hex _ (List.getElem_mem hlt)
    have h3 : w.trades[own[n]]? = some w.trades[own[n]] := List.getElem?_eq_getElem h2
    have htake : own.take (n + 1) = own.take n ++ [own[n]] := by rw [List.take_add_one, h1]; rfl
    rw [htake, List.reverse_append, List.reverse_singleton, List.singleton_append, List.filterMap_cons_some h3]
    generalize own[n] = i at *
    generalize w.trades[i] = t at *
    have hs : g.scan w own (n + 1) = if Spec.selected g.epics g.openOnly t = true then
        (if Spec.notBefore g.onlyAfter t = true then .ok (some i, n) else .ok (none, 0)) else g.scan w own n := by
      conv_lhs => unfold Gen.scan
      simp only [h1, h3, closed_not]
      change (if Spec.selected g.epics g.openOnly t = true then _ else _) = _
      by_cases hsel : Spec.selected g.epics g.openOnly t = true
      · rw [if_pos hsel, if_pos hsel]
        rcases g.onlyAfter with _ | d
        · rfl
        · unfold Spec.notBefore
          simp only
          by_cases hd : t.dt.lt d = true <;> simp [hd]
      · rw [if_neg hsel, if_neg hsel]
    rw [getTrades_go, List.filter_cons, ← getTrades_go] at *
    by_cases hsel : Spec.selected g.epics g.openOnly t = true
    · rw [if_pos hsel] at hs ⊢
      rw [List.takeWhile_cons]
      by_cases hb : Spec.notBefore g.onlyAfter t = true
      · rw [if_pos hb] at hs ⊢
        obtain ⟨l, g', e1, e2, e3⟩ := ih m (by omega) (by omega)
        refine ⟨i :: l, g', ?_, e2, ?_⟩
        · unfold Gen.drain
          rw [hnx (n + 1) hn, hsc, hs]
          show (do let rs ← ({ g with left := some n } : Gen).drain w m; _) = _
          rw [e1]; rfl
        · rw [List.filterMap_cons_some h3, e3, getTrades_go]
      · rw [if_neg hb] at hs ⊢
        refine ⟨[], _, ?_, rfl, rfl⟩
        unfold Gen.drain
        rw [hnx (n + 1) hn, hsc, hs]
        rfl
    · rw [if_neg hsel] at hs ⊢
      obtain ⟨l, g', e1, e2, e3⟩ := ih (m + 1) (by omega) (by omega)
      refine ⟨l, g', ?_, e2, by rw [e3, getTrades_go]⟩
      rw [← e1]
      unfold Gen.drain
      rw [hnx (n + 1) hn, hnx n (by omega), hsc (some (n + 1)), hsc (some n), hs]

theorem drain_fresh (g : Gen) (w : World) {st : Strategy} (h : w.strategies[g.strategy]? = some st) (hl : g.left = none) (m : ℕ) :
    g.drain w (m + 1) = ({ g with left := some st.trades.length } : Gen).drain w (m + 1) := by
  have := next_fresh g w h hl
  unfold Gen.drain
  rw [this]

/-- C96: `list(strategy.get_trades(...))`, with nothing happening in between, is the list of C36; afterwards the generator is used up. -/
theorem C96_list (g : Gen) (hg : g.left = none) (w : World) (st : Strategy) (hs : w.strategies[g.strategy]? = some st)
    (hex : ∀ i ∈ st.trades, i < w.trades.length) :
    ∃ l g', g.drain w (g.fuel w) = .ok (l, g') ∧
      l.filterMap (fun i => w.trades[i]?) =
        getTrades (st.trades.filterMap (fun i => w.trades[i]?)) g.epics g.openOnly g.onlyAfter ∧
      ∀ w' st', w'.strategies[g.strategy]? = some st' → g'.drain w' (g'.fuel w') = .ok ([], g') := by
  have hw : Begins g.strategy st.trades w := ⟨st, hs, List.prefix_refl _, hex⟩
  obtain ⟨l, g', h1, h2, h3⟩ := drain_left g w hw st.trades.length (st.trades.length + 1) le_rfl (by omega)
  have hf : g.fuel w = st.trades.length + 1 := by
    unfold Gen.fuel
    rw [hg, hs]; rfl
  refine ⟨l, g', by rw [hf, drain_fresh g w hs hg]; exact h1, ?_, ?_⟩
  · rw [h3, List.take_length]
    unfold getTrades
    rw [List.filterMap_reverse]
  · intro w' st' hs'
    subst h2
    show (do let r ← ({ g with left := some 0 } : Gen).next w'; _) = _
    unfold Gen.next
    simp only [hs']
    rfl

/-- C96: `result` and `profit_factor` of a generator use it up: of the trades of C36 the first time; 0 the second time, whatever the trades
(`strategy.result([])`, with an empty list, is the result of all trades). -/
theorem C96_used_up (g : Gen) (hg : g.left = none) (w : World) (st : Strategy) (hs : w.strategies[g.strategy]? = some st)
    (hex : ∀ i ∈ st.trades, i < w.trades.length) :
    let own := st.trades.filterMap (fun i => w.trades[i]?)
    ∃ g', g.result w = .ok (strategyResult own (.gen (getTrades own g.epics g.openOnly g.onlyAfter)), g') ∧
      ∀ w' st', w'.strategies[g.strategy]? = some st' → g'.result w' = .ok (0, g') ∧ g'.profitFactor w' = .ok (0, g') := by
  intro own
  obtain ⟨l, g', h1, h2, h3⟩ := C96_list g hg w st hs hex
  refine ⟨g', ?_, fun w' st' hs' => ?_⟩
  · unfold Gen.result
    rw [h1]
    show Except.ok _ = _
    rw [h2]; rfl
  · have := h3 w' st' hs'
    constructor
    · unfold Gen.result
      rw [this]
      show Except.ok (rnd (List.foldl fadd 0 []), g') = _
      rw [List.foldl_nil, rnd_zero]
    · unfold Gen.profitFactor
      rw [this]
      rfl

/-! ## User code -/

/-- All operations such code can ever perform satisfy `P`. -/
def GenProg.All (P : Op → Prop) : GenProg → Prop
  | .done => True
  | .raise _ => True
  | .act o k => P o ∧ ∀ w e, (k w e).All P
  | .next k => ∀ w a, (k w a).All P

/-- C96: code with a generator is a callback like any other: the same effects and the same exception, so the theorems about all callbacks hold for it. -/
theorem C96_callback (p : GenProg) : ∀ (g : Gen) (w : World), (p.prog g w).run w = ((p.run g w).world, (p.run g w).err) := by
  induction p with
  | done => intro g w; rfl
  | raise e => intro g w; rfl
  | act o k ih => intro g w; exact ih _ _ g _
  | next k ih =>
    intro g w
    unfold GenProg.prog GenProg.run
    rcases g.next w with e | ⟨a, g'⟩
    · rfl
    · exact ih w a g' w

theorem genProg_all (p : GenProg) {P : Op → Prop} (hp : p.All P) : ∀ (g : Gen) (w : World), (p.prog g w).All P := by
  induction p with
  | done => intro g w; trivial
  | raise e => intro g w; trivial
  | act o k ih => intro g w; exact ⟨hp.1, fun w' e => ih w' e (hp.2 w' e) g w'⟩
  | next k ih =>
    intro g w
    unfold GenProg.prog
    rcases g.next w with e | ⟨a, g'⟩
    · trivial
    · exact ih w a (hp w a) g' w

/-- C96: in code with non-negative quantities the states in which it asks come one after the other, and the answers are those of `calls`, so that
`C96_items` applies to them. -/
theorem C96_code (p : GenProg) (hp : p.All Op.Valid) : ∀ (g : Gen) (w : World), Sound w →
    ((w :: (p.run g w).calls.map Prod.fst) ++ [(p.run g w).world]).Pairwise Spec.Later ∧
    ∃ g', g.calls ((p.run g w).calls.map Prod.fst) = .ok ((p.run g w).calls.map Prod.snd, g') := by
  have key : ∀ (p : GenProg), p.All Op.Valid → ∀ (g : Gen) (w0 w : World), Sound w → WSteps True w0 w → Sound w0 →
      ((∀ x ∈ (p.run g w).calls.map Prod.fst ++ [(p.run g w).world], WSteps True w0 x) ∧
      ((p.run g w).calls.map Prod.fst ++ [(p.run g w).world]).Pairwise Spec.Later) ∧
      ∃ g', g.calls ((p.run g w).calls.map Prod.fst) = .ok ((p.run g w).calls.map Prod.snd, g') := by
    intro p
    induction p with
    | done =>
      intro _ g w0 w _ h _
      exact ⟨⟨by simpa [GenProg.run] using h, by simp [GenProg.run]⟩, g, rfl⟩
    | raise e =>
      intro _ g w0 w _ h _
      exact ⟨⟨by simpa [GenProg.run] using h, by simp [GenProg.run]⟩, g, rfl⟩
    | act o k ih =>
      intro hp g w0 w hw h h0
      have hst : WSteps True w (w.step o).1 := Steps.lift (step_steps hw.epics (fun _ => hp.1))
      exact ih _ _ (hp.2 _ _) g w0 _ (hw.wsteps hst) (h.trans hst) h0
    | next k ih =>
      intro hp g w0 w hw h h0
      unfold GenProg.run
      rcases hn : g.next w with e | ⟨a, g'⟩
      · exact ⟨⟨by simpa using h, by simp⟩, g, rfl⟩
      · obtain ⟨⟨h1, h2⟩, g2, h3⟩ := ih w a (hp w a) g' w0 w hw h h0
        obtain ⟨⟨h1', -⟩, -⟩ := ih w a (hp w a) g' w w hw .refl hw
        refine ⟨⟨?_, ?_⟩, g2, ?_⟩
        · simp only [List.map_cons, List.cons_append]
          intro x hx
          rcases List.mem_cons.mp hx with rfl | hx
          · exact h
          · exact h1 x hx
        · simp only [List.map_cons, List.cons_append]
          exact List.pairwise_cons.mpr ⟨fun x hx => later_of_steps hw (h1' x hx), h2⟩
        · simp only [List.map_cons]
          unfold Gen.calls
          rw [hn]
          show (do let rs ← g'.calls _; _) = _
          rw [h3]; rfl
  intro g w hw
  obtain ⟨⟨h1, h2⟩, h3⟩ := key p hp g w w hw .refl hw
  refine ⟨?_, h3⟩
  rw [List.cons_append]
  exact List.pairwise_cons.mpr ⟨fun x hx => later_of_steps hw (h1 x hx), h2⟩

/-! ## `for` loops -/

theorem andGen_run (p : Prog) (rest : GenProg) (g : Gen) : ∀ w : World, (p.andGen rest).run g w =
    match (p.run w).2 with
    | none => rest.run g (p.run w).1
    | some e => ⟨(p.run w).1, some e, []⟩ := by
  induction p with
  | done => intro w; rfl
  | raise e => intro w; rfl
  | act o k ih => intro w; exact ih _ _ _

theorem andGen_all (p : Prog) (rest : GenProg) {P : Op → Prop} (hp : p.All P) (hr : rest.All P) : (p.andGen rest).All P := by
  induction p with
  | done => exact hr
  | raise e => trivial
  | act o k ih => exact ⟨hp.1, fun w e => ih w e (hp.2 w e)⟩

theorem forEach_all {body : ℕ → World → Prog} {P : Op → Prop} (hb : ∀ i w, (body i w).All P) (n : ℕ) : (GenProg.forEach body n).All P := by
  induction n with
  | zero => trivial
  | succ n ih =>
    intro w a
    rcases a with _ | i
    · trivial
    · exact andGen_all _ _ (hb i w) ih

theorem forEach_left {body : ℕ → World → Prog} (hb : ∀ i w, (body i w).All Op.Valid) (own : List ℕ) : ∀ (m : ℕ) (g : Gen) (w : World),
    Sound w → Begins g.strategy own w → g.left = some m → m ≤ own.length → ∀ n, m < n →
      (GenProg.forEach body n).run g w = (GenProg.forEach body (m + 1)).run g w ∧
      (((GenProg.forEach body n).run g w).err = none →
        ∃ w', ((GenProg.forEach body n).run g w).calls.getLast? = some (w', none)) := by
  intro m
  induction m using Nat.strong_induction_on with
  | _ m ih =>
    intro g w hw hbg hl hm n hn
    obtain ⟨n, rfl⟩ : ∃ k, n = k + 1 := ⟨n - 1, by omega⟩
    obtain ⟨-, -, -, hex⟩ := id hbg
    have hnext := next_left g w hbg hm hl
    rcases scan_spec g w own hex m hm with ⟨i, m', t, e1, e2, -⟩ | ⟨e1, -⟩
    · rw [e1] at hnext
      have hrun : ∀ k, (GenProg.forEach body (k + 1)).run g w =
          { ((body i w).andGen (GenProg.forEach body k)).run { g with left := some m' } w with
            calls := (w, some i) :: (((body i w).andGen (GenProg.forEach body k)).run { g with left := some m' } w).calls } := by
        intro k
        conv_lhs => unfold GenProg.forEach GenProg.run
        rw [hnext]
        rfl
      rw [hrun n, hrun m]
      simp only [andGen_run]
      have hst : WSteps True w ((body i w).run w).1 := Steps.lift (prog_steps _ (fun _ => hb i w) w hw.epics)
      rcases hbr : (body i w).run w with ⟨w1, _ | e⟩
      · rw [hbr] at hst
        have hw1 := hw.wsteps hst
        have hb1 : Begins g.strategy own w1 := by
          obtain ⟨st, s1, s2, s3⟩ := hbg
          obtain ⟨st', q1, q2⟩ := (later_of_steps hw hst).lists _ st s1
          refine ⟨st', q1, s2.trans q2, fun j hj => ?_⟩
          obtain ⟨t', q3, -⟩ := (later_of_steps hw hst).trades j _ (List.getElem?_eq_getElem (s3 j hj))
          exact (List.getElem?_eq_some_iff.mp q3).1
        obtain ⟨r1, r2⟩ := ih m' e2 { g with left := some m' } w1 hw1 hb1 rfl (by omega) n (by omega)
        obtain ⟨r3, -⟩ := ih m' e2 { g with left := some m' } w1 hw1 hb1 rfl (by omega) m (by omega)
        simp only
        rw [r3, ← r1]
        refine ⟨rfl, fun he => ?_⟩
        obtain ⟨w', hw'⟩ := r2 he
        refine ⟨w', ?_⟩
        rw [List.getLast?_cons, hw']; rfl
      · exact ⟨rfl, fun he => by cases he⟩
    · rw [e1] at hnext
      have hrun : ∀ k, (GenProg.forEach body (k + 1)).run g w = ⟨w, none, [(w, none)]⟩ := by
        intro k
        conv_lhs => unfold GenProg.forEach GenProg.run
        rw [hnext]
        rfl
      rw [hrun n, hrun m]
      exact ⟨rfl, fun _ => ⟨w, rfl⟩⟩

theorem forEach_fresh (body : ℕ → World → Prog) (g : Gen) (w : World) {st : Strategy} (h : w.strategies[g.strategy]? = some st)
    (hl : g.left = none) (n : ℕ) :
    (GenProg.forEach body (n + 1)).run g w = (GenProg.forEach body (n + 1)).run { g with left := some st.trades.length } w := by
  unfold GenProg.forEach GenProg.run
  rw [next_fresh g w h hl]

/-- C96: a loop `for trade in strategy.get_trades(...)` ends even when its body opens trades: it has at most as many turns as the strategy has trades
when it begins.  When the body raises nothing, every trade of that moment that satisfies the conditions after the loop has had its turn (without
`only_after`). -/
theorem C96_for {body : ℕ → World → Prog} (hb : ∀ i w, (body i w).All Op.Valid) (g : Gen) (hg : g.left = none) (w : World) (hw : Sound w)
    (st : Strategy) (hs : w.strategies[g.strategy]? = some st) (n : ℕ) (hn : st.trades.length < n) :
    let r := (GenProg.forEach body n).run g w
    r = (GenProg.forEach body (st.trades.length + 1)).run g w ∧
    (r.calls.filterMap Prod.snd).Sublist st.trades.reverse ∧ (r.calls.filterMap Prod.snd).length ≤ st.trades.length ∧
    (r.err = none → g.onlyAfter = none → ∀ i ∈ st.trades, ∀ t, r.world.trades[i]? = some t →
      Spec.selected g.epics g.openOnly t = true → i ∈ r.calls.filterMap Prod.snd) := by
  intro r
  obtain ⟨n, rfl⟩ : ∃ k, n = k + 1 := ⟨n - 1, by omega⟩
  have hex := hw.reg.stratLt g.strategy st hs
  have hbg : Begins g.strategy st.trades w := ⟨st, hs, List.prefix_refl _, hex⟩
  obtain ⟨h1, h2⟩ := forEach_left hb st.trades st.trades.length { g with left := some st.trades.length } w hw hbg rfl le_rfl (n + 1) hn
  rw [← forEach_fresh body g w hs hg, ← forEach_fresh body g w hs hg] at h1
  rw [← forEach_fresh body g w hs hg] at h2
  obtain ⟨c1, gc, c2⟩ := C96_code (GenProg.forEach body (n + 1)) (forEach_all hb _) g w hw
  change r = _ at h1
  change r.err = none → ∃ w', r.calls.getLast? = some (w', none) at h2
  change ((w :: r.calls.map Prod.fst) ++ [r.world]).Pairwise Spec.Later at c1
  change g.calls (r.calls.map Prod.fst) = .ok (r.calls.map Prod.snd, gc) at c2
  -- the first question is asked in `w`
  have hhead : ∃ tl, r.calls.map Prod.fst = w :: tl := by
    show ∃ tl, ((GenProg.forEach body (n + 1)).run g w).calls.map Prod.fst = w :: tl
    unfold GenProg.forEach GenProg.run
    have := next_left { g with left := some st.trades.length } w hbg le_rfl rfl
    rw [← next_fresh g w hs hg] at this
    rcases scan_spec { g with left := some st.trades.length } w st.trades hex st.trades.length le_rfl with ⟨i, m, t, e1, -⟩ | ⟨e1, -⟩
    · rw [this, e1]; exact ⟨_, rfl⟩
    · rw [this, e1]; exact ⟨_, rfl⟩
  obtain ⟨tl, htl⟩ := hhead
  have hpw : (w :: (tl ++ [r.world])).Pairwise Spec.Later := by
    rw [htl] at c1
    exact (List.pairwise_cons.mp c1).2
  have hpw' : (w :: tl).Pairwise Spec.Later := hpw.sublist (by simp)
  obtain ⟨as, g', k1, k2, k3, k4, k5, k6⟩ := C96_items g hg w st hs hex tl hpw'
  rw [htl, k1] at c2
  injection c2 with c2; injection c2 with c2 _
  have hfm : r.calls.filterMap Prod.snd = as.filterMap id := by
    rw [c2, List.filterMap_map]; rfl
  rw [hfm]
  refine ⟨h1, k3, by simpa using k3.length_le, fun he ha i hi t ht hsel => ?_⟩
  obtain ⟨w', hlast⟩ := h2 he
  have hlen : r.calls.length = tl.length + 1 := by
    have := congrArg List.length htl; simpa using this
  have hL : r.calls[tl.length]? = some (w', none) := by
    rw [List.getLast?_eq_getElem?, hlen] at hlast; exact hlast
  have ha1 : as[tl.length]? = some none := by rw [c2, List.getElem?_map, hL]; rfl
  have hw1 : (w :: tl)[tl.length]? = some w' := by rw [← htl, List.getElem?_map, hL]; rfl
  obtain ⟨j, hj⟩ := List.mem_iff_getElem?.mp hi
  -- the trade satisfied the conditions at the last question too
  have hl1 : Spec.Later w w' := by
    rcases List.mem_cons.mp (List.mem_of_getElem? hw1) with rfl | hm
    · exact .refl _
    · exact List.rel_of_pairwise_cons hpw' hm
  have hl2 : Spec.Later w' r.world := by
    have : (w :: tl) ++ [r.world] = w :: (tl ++ [r.world]) := rfl
    rw [← this] at hpw
    exact (List.pairwise_append.mp hpw).2.2 w' (List.mem_of_getElem? hw1) r.world (by simp)
  obtain ⟨t1, q1, -⟩ := hl1.trades i _ (List.getElem?_eq_getElem (hex i hi))
  have hsel1 : Spec.selected g.epics g.openOnly t1 = true := by
    by_contra hc
    have := hl2.selected q1 ht (by simpa using hc)
    rw [hsel] at this; cases this
  rcases k6 tl.length w' hw1 ha1 j i t1 hj q1 hsel1 with h | ⟨c, i', t', -, -, -, hb'⟩
  · exact List.mem_filterMap.mpr ⟨some i, List.mem_of_mem_take h, rfl⟩
  · rw [ha] at hb'; cases hb'

/-! ## `close_opened_trades` -/

/-- Spec: the body of the loop of `close_opened_trades`: `self.close_trade(trade, quantity=q)`, exceptions go on. -/
def Spec.closeBody (q : Option ℤ) (i : ℕ) (w : World) : Prog :=
  match w.trades[i]? with
  | none => .raise .attr
  | some t => .act (.closeTrade t.epic i q) fun _ e => match e with
    | none => .done
    | some e => .raise e

theorem closeLoop_left (q : Option ℤ) (g : Gen) (hgo : g.openOnly = true) (hge : g.epics = none) (hga : g.onlyAfter = none) (own : List ℕ) :
    ∀ (m : ℕ) (w : World), Begins g.strategy own w → (∀ i ∈ own, ∃ t ep, w.trades[i]? = some t ∧ w.epics[t.epic]? = some ep) → m ≤ own.length →
      ∀ n, m < n → ∃ w', closeOpenedLoop q w (own.take m).reverse = .ok w' ∧
        ((GenProg.forEach (Spec.closeBody q) n).run { g with left := some m } w).world = w' ∧
        ((GenProg.forEach (Spec.closeBody q) n).run { g with left := some m } w).err = none := by
  intro m
  induction m with
  | zero =>
    intro w hbg _ hm n hn
    obtain ⟨n, rfl⟩ : ∃ k, n = k + 1 := ⟨n - 1, by omega⟩
    have hrun : (GenProg.forEach (Spec.closeBody q) (n + 1)).run { g with left := some 0 } w = ⟨w, none, [(w, none)]⟩ := by
      conv_lhs => unfold GenProg.forEach GenProg.run
      rw [next_left { g with left := some 0 } w hbg hm rfl]
      rfl
    rw [hrun]
    exact ⟨w, rfl, rfl, rfl⟩
  | succ m ih =>
    intro w hbg hok hm n hn
    obtain ⟨n, rfl⟩ : ∃ k, n = k + 1 := ⟨n - 1, by omega⟩
    have hlt : m < own.length := by omega
    have h1 : own[m]? = some own[m] := List.getElem?_eq_getElem hlt
    obtain ⟨t, ep, ht, hep⟩ := hok _ (List.getElem_mem hlt)
    have htake : own.take (m + 1) = own.take m ++ [own[m]] := by rw [List.take_add_one, h1]; rfl
    rw [htake, List.reverse_append, List.reverse_singleton, List.singleton_append]
    have hmem : own[m] ∈ own := List.getElem_mem hlt
    generalize own[m] = i at *
    have hsc : ∀ a k, ({ g with left := a } : Gen).scan w own k = g.scan w own k := by
      intro a k
      induction k with
      | zero => rfl
      | succ k ih => unfold Gen.scan; rw [ih]
    have hs : g.scan w own (m + 1) = if t.closed then g.scan w own m else .ok (some i, m) := by
      conv_lhs => unfold Gen.scan
      simp only [h1, ht, hge, hgo, hga]
      cases t.closed <;> rfl
    unfold closeOpenedLoop
    rw [ht]
    simp only
    by_cases hc : t.closed = true
    · rw [if_pos hc] at hs ⊢
      obtain ⟨w', e1, e2, e3⟩ := ih w hbg hok (by omega) (n + 1) (by omega)
      refine ⟨w', e1, ?_⟩
      have : (GenProg.forEach (Spec.closeBody q) (n + 1)).run { g with left := some (m + 1) } w =
          (GenProg.forEach (Spec.closeBody q) (n + 1)).run { g with left := some m } w := by
        unfold GenProg.forEach GenProg.run
        rw [next_left { g with left := some (m + 1) } w hbg hm rfl, next_left { g with left := some m } w hbg (by omega) rfl,
          hsc (some (m + 1)), hsc (some m), hs]
      rw [this]
      exact ⟨e2, e3⟩
    · rw [if_neg hc] at hs ⊢
      obtain ⟨u, hu⟩ : ∃ u, w.closeTrade t.epic i q = .ok u := by
        unfold World.closeTrade
        rw [hep]
        exact closeOn_ok ht hep
      have hu' : w.closeOn ep.provider i q = .ok u := by
        unfold World.closeTrade at hu
        rw [hep] at hu; exact hu
      obtain ⟨x, epx, hx, -, hus⟩ := closeOn_eq hu'
      have hstr : u.strategies = w.strategies := by rw [hus]; rfl
      have heps : u.epics = w.epics := by rw [hus]; rfl
      have hkept : KeptAll w.trades u.trades := by
        rw [hus]
        show KeptAll w.trades (w.trades.set i _)
        rw [set_eq_modify _ _ _ (fun t => t.closeFromTick epx.lastTick q) hx]
        exact KeptAll.modify _ _ _ (fun t => kept_closeFromTick t _ _)
      have hbg' : Begins g.strategy own u := by
        obtain ⟨st, s1, s2, s3⟩ := hbg
        refine ⟨st, by rw [hstr]; exact s1, s2, fun j hj => ?_⟩
        obtain ⟨t', q1, -⟩ := hkept j _ (List.getElem?_eq_getElem (s3 j hj))
        exact (List.getElem?_eq_some_iff.mp q1).1
      obtain ⟨w', e1, e2, e3⟩ := ih u hbg' (fun j hj => by
        obtain ⟨a, b, a1, b1⟩ := hok j hj
        obtain ⟨a', a2, a3⟩ := hkept j a a1
        exact ⟨a', b, a2, by rw [heps, a3.epic]; exact b1⟩) (by omega) n (by omega)
      refine ⟨w', by rw [hu]; exact e1, ?_⟩
      have hbody : (Spec.closeBody q i w).run w = (u, none) := by
        unfold Spec.closeBody
        rw [ht]
        unfold Prog.run
        show Prog.run (match (orKeep w (w.closeTrade t.epic i q)).2 with | none => .done | some e => .raise e) (orKeep w (w.closeTrade t.epic i q)).1 = _
        rw [hu]; rfl
      have hrun : (GenProg.forEach (Spec.closeBody q) (n + 1)).run { g with left := some (m + 1) } w =
          { (GenProg.forEach (Spec.closeBody q) n).run { g with left := some m } u with
            calls := (w, some i) :: ((GenProg.forEach (Spec.closeBody q) n).run { g with left := some m } u).calls } := by
        conv_lhs => unfold GenProg.forEach GenProg.run
        rw [next_left { g with left := some (m + 1) } w hbg hm rfl, hsc, hs]
        show ({ ((Spec.closeBody q i w).andGen (GenProg.forEach (Spec.closeBody q) n)).run { g with left := some m } w with
          calls := (w, some i) :: (((Spec.closeBody q i w).andGen (GenProg.forEach (Spec.closeBody q) n)).run { g with left := some m } w).calls } : GenRun) = _
        rw [andGen_run, hbody]
      rw [hrun]
      exact ⟨e2, e3⟩

/-- C96: `strategy.close_opened_trades(quantity=q)` is the loop `for trade in strategy.get_trades(open_only=True): strategy.close_trade(trade, quantity=q)`:
same state, no exception. -/
theorem C96_close_opened {env : Env} {w : World} (hw : Reachable env w) {s : ℕ} {st : Strategy} (hs : w.strategies[s]? = some st) (q : Option ℤ)
    (n : ℕ) (hn : st.trades.length < n) :
    w.step (.closeOpened s q) =
      (((GenProg.forEach (Spec.closeBody q) n).run (Gen.new s none true none) w).world,
        ((GenProg.forEach (Spec.closeBody q) n).run (Gen.new s none true none) w).err) ∧
    ((GenProg.forEach (Spec.closeBody q) n).run (Gen.new s none true none) w).err = none := by
  have hi := hw.regInv
  have hex := hi.stratLt s st hs
  obtain ⟨w', h1, h2, h3⟩ := closeLoop_left q (Gen.new s none true none) rfl rfl rfl st.trades st.trades.length w
    ⟨st, hs, List.prefix_refl _, hex⟩ (fun i him => by
      obtain ⟨ep, hep⟩ := hi.epicOk i _ (List.getElem?_eq_getElem (hex i him))
      exact ⟨_, ep, List.getElem?_eq_getElem (hex i him), hep⟩) le_rfl n hn
  obtain ⟨n, rfl⟩ : ∃ k, n = k + 1 := ⟨n - 1, by omega⟩
  have hfr := forEach_fresh (Spec.closeBody q) (Gen.new s none true none) w hs rfl n
  rw [hfr]
  refine ⟨?_, h3⟩
  rw [h2, h3]
  rw [List.take_length] at h1
  simp only [World.step, hs, h1]
  rfl

end

/-! ## Concrete cases -/

/-- Strategy 0 has bought 3 units of epic 1 and 2 units of epic 0; strategy 1 has a trade, too. -/
def Demo.loaded : List Cmd := [.tick 1 (Demo.tk 480 10 12), .tick 0 (Demo.tk 480 20 22), .op (.openTrade 1 (some 0) (some .buy) 3),
  .op (.openTrade 1 (some 1) (some .buy) 5), .op (.openTrade 0 (some 0) (some .buy) 2), .tick 1 (Demo.tk 481 11 13)]

theorem Demo.loaded_valid : ∀ c ∈ Demo.loaded, c.Valid := by
  intro c hc
  simp only [Demo.loaded, List.mem_cons, List.not_mem_nil, or_false] at hc
  rcases hc with rfl | rfl | rfl | rfl | rfl | rfl <;> simp [Cmd.Valid, Op.Valid]

theorem Demo.loaded_sound [Arith] : Sound (Demo.world.runCmds Demo.quiet Demo.loaded) :=
  (Sound.init Demo.world_init).wsteps (runCmds_steps (env := Demo.quiet) (fun _ _ _ _ _ => trivial) Demo.loaded Demo.world (Init.epicsOk Demo.world_init)
    (fun _ => Demo.loaded_valid))

/-- Every trade is closed and replaced by a new one of one unit, so the loop adds to the list it goes over. -/
def Demo.renew : ℕ → World → Prog := fun i w => match w.trades[i]? with
  | none => .done
  | some t => .act (.closeTrade t.epic i none) fun _ _ => .act (.openTrade t.epic (some 0) (some .buy) 1) fun _ _ => .done

/-- Every trade is answered by a sale of four units, which closes trades the loop has not reached. -/
def Demo.dump : ℕ → World → Prog := fun _ _ => .act (.openTrade 1 (some 0) (some .sell) 4) fun _ _ => .done

/-- Concrete case of `C96_for` and its hypotheses: two turns, latest first; the two new trades (3 and 4) are open afterwards and get no turn. -/
example : letI := Arith.exact
    let w := Demo.world.runCmds Demo.quiet Demo.loaded
    let r := (GenProg.forEach Demo.renew 3).run (Gen.new 0 none true none) w
    Sound w ∧ (∀ i w, (Demo.renew i w).All Op.Valid) ∧ (w.strategies[0]?).map Strategy.trades = some [0, 2] ∧
    r.calls.map Prod.snd = [some 2, some 0, none] ∧ r.err = none ∧
    (r.world.strategies[0]?).map Strategy.trades = some [0, 2, 3, 4] ∧ r.world.trades.map Trade.closed = [true, false, true, false, false] := by
  letI := Arith.exact
  refine ⟨Demo.loaded_sound, ?_, by decide +kernel, by decide +kernel, by decide +kernel, by decide +kernel, by decide +kernel⟩
  intro i w
  unfold Demo.renew
  rcases w.trades[i]? with _ | t
  · trivial
  · exact ⟨(by intro n h; cases h), fun _ _ => ⟨(by simp [Op.Valid]), fun _ _ => trivial⟩⟩

/-- A trade that a loop over open trades has not reached is skipped when it is closed meanwhile: the sale of 4 units closes trades 2 and 0 (2 of 3 units),
a second one the rest.  A loop over `list(...)` would have two turns in any case. -/
example : letI := Arith.exact
    let w := Demo.world.runCmds Demo.quiet (Demo.loaded ++ [.op (.closeTrade 1 0 (some 1))])
    let r := (GenProg.forEach Demo.dump 3).run (Gen.new 0 none true none) w
    r.calls.map Prod.snd = [some 2, none] ∧ ((Gen.new 0 none true none).drain w 3).toOption.map Prod.fst = some [2, 0] := by
  letI := Arith.exact
  exact ⟨by decide +kernel, by decide +kernel⟩

/-- The list is looked at when the first trade is asked for: a generator made before a trade is opened gives that trade. -/
example : letI := Arith.exact
    let w := Demo.world.runCmds Demo.quiet Demo.loaded
    let g := Gen.new 0 none false none
    (((GenProg.act (.openTrade 1 (some 0) (some .buy) 7) fun _ _ => GenProg.forEach (fun _ _ => .done) 4).run g w).calls.map Prod.snd =
      [some 3, some 2, some 0, none]) ∧
    ((GenProg.next fun _ _ => GenProg.act (.openTrade 1 (some 0) (some .buy) 7) fun _ _ => GenProg.forEach (fun _ _ => .done) 4).run g w).calls.map Prod.snd =
      [some 2, some 0, none] := by
  letI := Arith.exact
  exact ⟨by decide +kernel, by decide +kernel⟩

/-- Concrete case of `C96_items`: asked in one state, then twice after the trade of epic 1 was closed; conditions on epics and openness. -/
example : letI := Arith.exact
    let w := Demo.world.runCmds Demo.quiet Demo.loaded
    let w' := (w.step (.closeTrade 1 0 none)).1
    [w, w', w'].Pairwise Spec.Later ∧
    (((Gen.new 0 none true none).calls [w, w', w']).toOption.map Prod.fst = some [some 2, none, none]) ∧
    (((Gen.new 0 (some [1]) true none).calls [w, w', w']).toOption.map Prod.fst = some [some 0, none, none]) ∧
    (((Gen.new 0 (some [1]) false (some (Demo.tk 481 1 1).dt)).calls [w, w', w']).toOption.map Prod.fst = some [none, none, none]) := by
  letI := Arith.exact
  have h : WSteps True (Demo.world.runCmds Demo.quiet Demo.loaded) ((Demo.world.runCmds Demo.quiet Demo.loaded).step (.closeTrade 1 0 none)).1 :=
    Steps.lift (step_steps Demo.loaded_sound.epics (fun _ => by intro n h; cases h))
  have h1 := later_of_steps Demo.loaded_sound h
  refine ⟨?_, by decide +kernel, by decide +kernel, by decide +kernel⟩
  simp only [List.pairwise_cons, List.mem_cons, List.not_mem_nil, or_false, forall_eq_or_imp, forall_eq, List.Pairwise.nil, and_true]
  exact ⟨⟨h1, h1⟩, ⟨.refl _, by simp⟩⟩

/-- Concrete case of `C96_list` and `C96_used_up`: the result of the generator is the result of the trades once, then 0; an empty list means all trades. -/
example : letI := Arith.exact
    let w := Demo.world.runCmds Demo.quiet Demo.loaded
    let own := [0, 2].filterMap (fun i => w.trades[i]?)
    let g := Gen.new 0 none true none
    ((g.result w).toOption.map (fun r => (r.1, (r.2.result w).toOption.map Prod.fst)) = some (-25, some 0)) ∧
    strategyResult own (.list []) = -25 := by
  letI := Arith.exact
  exact ⟨by decide +kernel, by decide +kernel⟩

/-- Concrete case of `C96_close_opened`. -/
example : letI := Arith.exact
    let w := Demo.world.runCmds Demo.quiet Demo.loaded
    ((w.step (.closeOpened 0 (some 2))).1.trades.map Trade.openedQty = [1, 5, 0]) ∧
    ((GenProg.forEach (Spec.closeBody (some 2)) 3).run (Gen.new 0 none true none) w).world.trades.map Trade.openedQty = [1, 5, 0] := by
  letI := Arith.exact
  exact ⟨by decide +kernel, by decide +kernel⟩

end Estrade
