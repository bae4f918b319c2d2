import Verif.Props.Announce

/-!
# C111: the epics of a strategy

`strategy.epics` is documented as the epics that call the strategy.  It is written by `Epic.add_strategy` alone
(epic.py:143-150), which files the epic under its reference.
-/

set_option linter.style.haveILetI false
set_option linter.unusedSectionVars false
set_option autoImplicit false

namespace Estrade

section
variable [Arith]

/-! ## Spec -/

/-- Spec: the registrations of strategies in a run that were not refused, in order: epic and strategy. -/
def Spec.regs (env : Env) : World → List Cmd → List (ℕ × ℕ)
  | _, [] => []
  | w, .addStrategy e s :: l =>
    (if (w.exec env (.addStrategy e s)).2 = none then [(e, s)] else []) ++ Spec.regs env (w.exec env (.addStrategy e s)).1 l
  | w, c :: l => Spec.regs env (w.exec env c).1 l

/-- Spec: the epic registered last for strategy `s` among those whose reference is `r`. -/
def Spec.lastOf (w : World) (s : ℕ) (r : String) (R : List (ℕ × ℕ)) : Option ℕ :=
  ((R.filter (fun x => x.2 = s ∧ (w.epics[x.1]?).map (fun ep => ep.ref) = some r)).getLast?).map Prod.fst

/-! ## What changes the links -/

/-- Both ends of the links between epics and strategies. -/
def links (w : World) : List (String × Dict ℕ) × List (String × Dict ℕ) :=
  (w.epics.map (fun ep => (ep.ref, ep.strategies)), w.strategies.map (fun st => (st.ref, st.epics)))

theorem map_set_same {α β : Type} (f : α → β) (l : List α) (i : ℕ) (a b : α) (h : l[i]? = some a) (hf : f b = f a) :
    (l.set i b).map f = l.map f := by
  rw [List.map_set, hf]
  apply List.ext_getElem?
  intro j
  rw [List.getElem?_set]
  by_cases hj : i = j
  · subst hj
    rw [if_pos rfl, List.length_map, if_pos (getElem?_lt h), List.getElem?_map, h]; rfl
  · rw [if_neg hj]

theorem map_modify_same {α β : Type} (f : α → β) (l : List α) (i : ℕ) (g : α → α) (hg : ∀ a, f (g a) = f a) :
    (l.modify i g).map f = l.map f := by
  apply List.ext_getElem?
  intro j
  rw [List.getElem?_map, List.getElem?_modify, List.getElem?_map]
  by_cases hj : i = j
  · subst hj
    cases l[i]? <;> simp [hg]
  · cases l[j]? <;> simp [hj]

theorem register_links (w : World) (p i : ℕ) (so : Option ℕ) : links (w.register p i so) = links w := by
  unfold World.register
  cases so with
  | none => rfl
  | some k =>
    unfold links
    refine Prod.ext rfl ?_
    exact map_modify_same _ _ _ _ (fun _ => rfl)

theorem links_congr {w w' : World} (h1 : w'.epics = w.epics) (h2 : w'.strategies = w.strategies) : links w' = links w := by
  unfold links; rw [h1, h2]

theorem netLoop_epics (l : List ℕ) (p : ℕ) (u u' : World) (t t' : Trade)
    (h : netLoop p u t l = .ok (u', t')) : u'.epics = u.epics := by
  induction l generalizing u t with
  | nil => injection h with h; injection h with h1 h2; rw [← h1]
  | cons i l ih =>
    unfold netLoop at h
    split at h
    · cases h
    · rename_i x hx
      split_ifs at h
      · exact ih _ _ h
      · simp only at h
        rcases hc : u.closeOn p i (some (min x.openedQty t.openQty)) with err | v
        · rw [hc] at h; cases h
        · rw [hc] at h
          refine (ih _ _ h).trans ?_
          obtain ⟨_, _, -, -, rfl⟩ := closeOn_eq hc
          rfl
      · exact ih _ _ h

theorem step_links (w : World) (o : Op) : links (w.step o).1 = links w := by
  have he := (step_epics w o).1
  cases o with
  | openTrade e so d q =>
    simp only [World.step] at he ⊢
    rcases hep : w.epics[e]? with _ | ep
    · rfl
    · simp only [hep] at he ⊢
      split_ifs
      · rcases ht : Trade.openFromTick ep.lastTick e d q so with err | t
        · rfl
        · simp only [bind, Except.bind]
          unfold World.providerOpen
          rcases hpr : w.providers[ep.provider]? with _ | pr
          · rfl
          · simp only
            rcases hk : pr.kind with _ | _
            · simp only
              rcases hn : netLoop ep.provider w t (w.openedTrades pr) with err | ⟨u, t'⟩
              · rfl
              · simp only [bind, Except.bind]
                have hu := netLoop_strategies _ _ _ _ _ _ hn
                have hue : u.epics = w.epics := netLoop_epics _ _ _ _ _ _ hn
                split_ifs
                · exact links_congr hue hu
                · exact (register_links _ _ _ _).trans (links_congr (w := w) hue hu)
            · simp only
              exact register_links _ _ _ _
      · rfl
  | closeTrade e t q =>
    refine links_congr he ?_
    simp only [World.step]
    rcases hc : w.closeTrade e t q with err | v
    · rfl
    · exact closeTrade_strategies hc
  | closeOpened s q =>
    refine links_congr he ?_
    simp only [World.step]
    split
    · rfl
    · rename_i x _
      rcases hc : closeOpenedLoop q w x.trades.reverse with err | v
      · rfl
      · exact closeOpenedLoop_strategies _ _ _ _ hc
  | update t v => rfl
  | close t v dt q => rfl
  | pause k d =>
    refine Prod.ext rfl ?_
    exact map_modify_same _ _ _ _ (fun _ => rfl)
  | stop k b =>
    refine Prod.ext rfl ?_
    exact map_modify_same _ _ _ _ (fun _ => rfl)
  | thread p i x => exact links_congr he (runThread_strategies w p i x)

theorem prog_links (p : Prog) (w : World) : links (p.run w).1 = links w := by
  induction p generalizing w with
  | done => rfl
  | raise e => rfl
  | act o k ih => exact (ih _ _ _).trans (step_links w o)

theorem call_links (env : Env) (w : World) (s : ℕ) (cb : Cb) (e : ℕ) : links (w.call env s cb e).1 = links w := by
  unfold World.call
  exact prog_links _ _

theorem callIf_links (env : Env) (c : Bool) (w : World) (s : ℕ) (cb : Cb) (e : ℕ) :
    links (w.callIf env c s cb e).1 = links w := by
  unfold World.callIf
  split_ifs
  · exact call_links env w s cb e
  · rfl

theorem andThen_links {w : World} {r : World × Option PyErr} {f : World → World × Option PyErr} (h : links r.1 = links w)
    (hf : ∀ u, links (f u).1 = links u) : links (andThen r f).1 = links w := by
  rcases andThen_cases r f with ⟨-, g⟩ | ⟨-, g⟩
  · rw [g, hf, h]
  · rw [g, h]

theorem execStrategies_links (env : Env) (e : ℕ) (b : Bool) (dt : DT) (l : List ℕ) (w : World) :
    links (execStrategies env e b dt w l).1 = links w := by
  induction l generalizing w with
  | nil => rfl
  | cons s l ih =>
    refine andThen_links ?_ ih
    unfold World.execStrategy
    rcases hs : w.strategies[s]? with _ | st
    · rfl
    · simp only
      have h0 : links { w with strategies := w.strategies.set s (st.isActive dt).2 } = links w := by
        refine Prod.ext rfl ?_
        refine map_set_same _ _ _ _ _ hs ?_
        unfold Strategy.isActive
        split_ifs
        · rfl
        · split
          · rfl
          · split_ifs <;> rfl
      split_ifs
      · refine Eq.trans ?_ h0
        unfold World.notifyAll
        exact andThen_links (callIf_links ..) fun _ => andThen_links (callIf_links ..) fun _ =>
          andThen_links (callIf_links ..) fun _ => call_links ..
      · exact h0

theorem tick_links (env : Env) (w : World) (e : ℕ) (k : Tick) : links (w.onNewTick env e k).1 = links w := by
  rcases onNewTick_cases env w e k with ⟨h, -⟩ | ⟨ep, h1, -, -, h⟩ | ⟨ep, w1, h1, -, h, g2, -, g4⟩
  · rw [h]
  · rw [h]
    refine Prod.ext ?_ rfl
    exact map_set_same _ _ _ _ _ h1 rfl
  · rw [h, execStrategies_links]
    refine Prod.ext ?_ (by unfold links; rw [g4])
    show w1.epics.map _ = _
    rw [g2]
    exact map_set_same _ _ _ _ _ h1 rfl

/-- Nothing but registering a strategy changes the links. -/
theorem exec_links (env : Env) (w : World) (c : Cmd) (hc : ∀ e s, c ≠ .addStrategy e s) :
    links (w.exec env c).1 = links w := by
  cases c with
  | tick e k => exact tick_links env w e k
  | op o => exact step_links w o
  | addStrategy e s => exact absurd rfl (hc e s)
  | addFrameSet e ref fs =>
    simp only [World.exec, World.addFrameSet]
    rcases h0 : w.epics[e]? with _ | ep
    · rfl
    · simp only [Epic.addFrameSet]
      rcases hg : ep.frameSets.get? ref with _ | g
      · exact Prod.ext (map_set_same _ _ _ _ _ h0 rfl) rfl
      · rfl
  | addIndicator e ref ind =>
    simp only [World.exec, World.addIndicator]
    rcases h0 : w.epics[e]? with _ | ep
    · rfl
    · simp only
      rcases hg : ep.frameSets.get? ref with _ | g
      · rfl
      · exact Prod.ext (map_set_same _ _ _ _ _ h0 rfl) rfl

theorem links_epic {w w' : World} (h : links w' = links w) {e : ℕ} {ep : Epic} (he : w'.epics[e]? = some ep) :
    ∃ ep0, w.epics[e]? = some ep0 ∧ ep0.ref = ep.ref ∧ ep0.strategies = ep.strategies := by
  have := congrArg (fun x => x.1[e]?) h
  simp only [links, List.getElem?_map, he] at this
  rcases h0 : w.epics[e]? with _ | ep0
  · rw [h0] at this; cases this
  · rw [h0] at this
    simp only [Option.map_some, Option.some.injEq, Prod.mk.injEq] at this
    exact ⟨ep0, rfl, this.1.symm, this.2.symm⟩

theorem links_strategy {w w' : World} (h : links w' = links w) {s : ℕ} {st : Strategy} (hs : w'.strategies[s]? = some st) :
    ∃ st0, w.strategies[s]? = some st0 ∧ st0.ref = st.ref ∧ st0.epics = st.epics := by
  have := congrArg (fun x => x.2[s]?) h
  simp only [links, List.getElem?_map, hs] at this
  rcases h0 : w.strategies[s]? with _ | st0
  · rw [h0] at this; cases this
  · rw [h0] at this
    simp only [Option.map_some, Option.some.injEq, Prod.mk.injEq] at this
    exact ⟨st0, rfl, this.1.symm, this.2.symm⟩

theorem links_ref {w w' : World} (h : links w' = links w) (e : ℕ) :
    (w'.epics[e]?).map (fun ep => ep.ref) = (w.epics[e]?).map (fun ep => ep.ref) := by
  have := congrArg (fun x => (x.1[e]?).map Prod.fst) h
  simpa only [links, List.getElem?_map, Option.map_map, Function.comp_def] using this

/-! ## The books follow the registrations -/

/-- The books of `w` (references as in `w0`) are those of the registrations `R`. -/
structure Linked (w0 : World) (R : List (ℕ × ℕ)) (w : World) : Prop where
  ref : ∀ e : ℕ, (w.epics[e]?).map (fun ep => ep.ref) = (w0.epics[e]?).map (fun ep => ep.ref)
  epic : ∀ (e : ℕ) ep, w.epics[e]? = some ep → ep.strategies.map Prod.snd = (R.filter (fun x => x.1 = e)).map Prod.snd
  strat : ∀ (s : ℕ) st, w.strategies[s]? = some st → ∀ r, st.epics.get? r = Spec.lastOf w0 s r R
  keys : ∀ (s : ℕ) st, w.strategies[s]? = some st → (st.epics.map Prod.fst).Nodup

theorem Linked.of_links {w0 w w' : World} {R : List (ℕ × ℕ)} (h : Linked w0 R w) (hl : links w' = links w) :
    Linked w0 R w' := by
  refine ⟨fun e => (links_ref hl e).trans (h.ref e), fun e ep he => ?_, fun s st hs r => ?_, fun s st hs => ?_⟩
  · obtain ⟨x, x1, -, x3⟩ := links_epic hl he
    rw [← x3]; exact h.epic e x x1
  · obtain ⟨x, x1, -, x3⟩ := links_strategy hl hs
    rw [← x3]; exact h.strat s x x1 r
  · obtain ⟨x, x1, -, x3⟩ := links_strategy hl hs
    rw [← x3]; exact h.keys s x x1

theorem lastOf_append (w : World) (s : ℕ) (r : String) (R : List (ℕ × ℕ)) (e s' : ℕ) :
    Spec.lastOf w s r (R ++ [(e, s')]) =
      if s' = s ∧ (w.epics[e]?).map (fun ep => ep.ref) = some r then some e else Spec.lastOf w s r R := by
  unfold Spec.lastOf
  rw [List.filter_append]
  by_cases h : s' = s ∧ (w.epics[e]?).map (fun ep => ep.ref) = some r
  · rw [if_pos h]
    have : [(e, s')].filter (fun x => decide (x.2 = s ∧ (w.epics[x.1]?).map (fun ep => ep.ref) = some r)) = [(e, s')] := by
      rw [List.filter_cons, if_pos (by simpa using h)]; rfl
    rw [this]; simp
  · rw [if_neg h]
    have : [(e, s')].filter (fun x => decide (x.2 = s ∧ (w.epics[x.1]?).map (fun ep => ep.ref) = some r)) = [] := by
      rw [List.filter_cons, if_neg (by simpa using h)]; rfl
    rw [this, List.append_nil]

theorem addStrategy_linked {env : Env} {w0 w : World} {R : List (ℕ × ℕ)} (h : Linked w0 R w) (e s : ℕ) :
    Linked w0 (R ++ if (w.exec env (.addStrategy e s)).2 = none then [(e, s)] else []) (w.exec env (.addStrategy e s)).1 := by
  change Linked w0 (R ++ if (w.addStrategy e s).2 = none then [(e, s)] else []) (w.addStrategy e s).1
  have refused : ∀ err, w.addStrategy e s = (w, some err) →
      Linked w0 (R ++ if (w.addStrategy e s).2 = none then [(e, s)] else []) (w.addStrategy e s).1 := by
    intro err hr
    rw [hr]
    simpa using h
  rcases h0 : w.epics[e]? with _ | ep
  · exact refused .attr (by simp [World.addStrategy, h0])
  rcases h1 : w.strategies[s]? with _ | st
  · exact refused .attr (by simp [World.addStrategy, h0, h1])
  rcases hg : ep.strategies.get? st.ref with _ | g
  · have hr : w.addStrategy e s = ((w.modEpic e (fun ep => { ep with strategies := ep.strategies.set st.ref s })).modStrategy s
        (fun st => { st with epics := st.epics.set ep.ref e }), none) := by
      simp [World.addStrategy, h0, h1, hg]
    rw [hr]
    simp only [if_true]
    refine ⟨fun e' => ?_, fun e' ep' he' => ?_, fun s' st' hs' r => ?_, fun s' st' hs' => ?_⟩
    · rw [← h.ref e']
      simp only [World.modStrategy, World.modEpic, List.getElem?_modify]
      cases w.epics[e']? with
      | none => rfl
      | some x => simp only [Option.map_eq_map, Option.map_some]; split_ifs <;> rfl
    · simp only [World.modStrategy, World.modEpic, List.getElem?_modify] at he'
      by_cases hee : e = e'
      · subst hee
        rw [h0] at he'
        simp only [if_true, Option.map_eq_map, Option.map_some, Option.some.injEq] at he'
        subst he'
        show (ep.strategies.set st.ref s).map Prod.snd = _
        rw [Dict.set_new _ _ _ hg, List.map_append, List.filter_append, List.map_append, h.epic e ep h0]
        simp
      · simp only [hee, if_false, Option.map_eq_map, Option.map_id_fun', id_eq] at he'
        rw [List.filter_append, List.map_append, h.epic e' ep' he']
        simp [hee]
    · rw [lastOf_append]
      simp only [World.modStrategy, World.modEpic, List.getElem?_modify] at hs'
      by_cases hss : s = s'
      · subst hss
        rw [h1] at hs'
        simp only [if_true, Option.map_eq_map, Option.map_some, Option.some.injEq] at hs'
        subst hs'
        show (st.epics.set ep.ref e).get? r = _
        rw [Dict.get?_set, h.strat s st h1 r]
        have hr : (w0.epics[e]?).map (fun ep => ep.ref) = some ep.ref := by rw [← h.ref e, h0]; rfl
        simp [hr]
      · simp only [hss, if_false, Option.map_eq_map, Option.map_id_fun', id_eq] at hs'
        rw [h.strat s' st' hs' r, if_neg (fun hc => hss hc.1)]
    · simp only [World.modStrategy, World.modEpic, List.getElem?_modify] at hs'
      by_cases hss : s = s'
      · subst hss
        rw [h1] at hs'
        simp only [if_true, Option.map_eq_map, Option.map_some, Option.some.injEq] at hs'
        subst hs'
        exact Dict.keys_set_nodup _ _ _ (h.keys s st h1)
      · simp only [hss, if_false, Option.map_eq_map, Option.map_id_fun', id_eq] at hs'
        exact h.keys s' st' hs'
  · exact refused .epic (by simp [World.addStrategy, h0, h1, hg])

theorem run_linked {env : Env} {w0 : World} (l : List Cmd) : ∀ (w : World) (R : List (ℕ × ℕ)), Linked w0 R w →
    Linked w0 (R ++ Spec.regs env w l) (w.runCmds env l) := by
  induction l with
  | nil => intro w R h; simpa [Spec.regs, World.runCmds] using h
  | cons c l ih =>
    intro w R h
    rw [runCmds_cons]
    by_cases hc : ∃ e s, c = .addStrategy e s
    · obtain ⟨e, s, rfl⟩ := hc
      rw [Spec.regs, ← List.append_assoc]
      exact ih _ _ (addStrategy_linked h e s)
    · push Not at hc
      have : Spec.regs env w (c :: l) = Spec.regs env (w.exec env c).1 l := by
        cases c with
        | addStrategy e s => exact absurd rfl (hc e s)
        | _ => rfl
      rw [this]
      exact ih _ _ (h.of_links (exec_links env w c hc))

theorem Linked.init {w : World} (hw : w.Init) : Linked w [] w := by
  refine ⟨fun _ => rfl, fun e ep he => ?_, fun s st hs r => ?_, fun s st hs => ?_⟩
  · obtain ⟨ref, z, o, c, td, hh, p, -, rfl⟩ := hw.epics ep (List.mem_of_getElem? he)
    rfl
  · obtain ⟨ref, rfl⟩ := hw.strategies st (List.mem_of_getElem? hs)
    rfl
  · obtain ⟨ref, rfl⟩ := hw.strategies st (List.mem_of_getElem? hs)
    exact List.nodup_nil

/-! ## C111 -/

/-- C111: `strategy.epics` and `epic.strategies` after any program, in terms of the registrations that were not refused: an
epic calls its strategies in the order of registration; a strategy finds under each reference the epic registered last among
those of that reference, once. -/
theorem C111_books (env : Env) {w : World} (hw : w.Init) (l : List Cmd) :
    (∀ e ep, (w.runCmds env l).epics[e]? = some ep →
      ep.strategies.map Prod.snd = ((Spec.regs env w l).filter (fun x => x.1 = e)).map Prod.snd) ∧
    (∀ s st, (w.runCmds env l).strategies[s]? = some st →
      (st.epics.map Prod.fst).Nodup ∧ ∀ r, st.epics.get? r = Spec.lastOf w s r (Spec.regs env w l)) := by
  have h := run_linked (env := env) l w [] (Linked.init hw)
  rw [List.nil_append] at h
  exact ⟨h.epic, fun s st hs => ⟨h.keys s st hs, h.strat s st hs⟩⟩

/-- Spec: no two epics have the same reference. -/
def Spec.DistinctEpics (w : World) : Prop := (w.epics.map (fun ep => ep.ref)).Nodup

theorem lastOf_distinct {w : World} (hd : Spec.DistinctEpics w) {s e : ℕ} {ep : Epic} (he : w.epics[e]? = some ep)
    (R : List (ℕ × ℕ)) (e' : ℕ) : Spec.lastOf w s ep.ref R = some e' ↔ e' = e ∧ (e, s) ∈ R := by
  have key : ∀ e1, (w.epics[e1]?).map (fun ep => ep.ref) = some ep.ref → e1 = e := by
    intro e1 h1
    unfold Spec.DistinctEpics at hd
    rw [List.nodup_iff_getElem?_ne_getElem?] at hd
    have a1 : (w.epics.map (fun ep => ep.ref))[e1]? = some ep.ref := by rw [List.getElem?_map]; exact h1
    have a2 : (w.epics.map (fun ep => ep.ref))[e]? = some ep.ref := by rw [List.getElem?_map, he]; rfl
    rcases lt_trichotomy e1 e with hlt | rfl | hlt
    · exact absurd (a1.trans a2.symm) (hd e1 e hlt (getElem?_lt a2))
    · rfl
    · exact absurd (a2.trans a1.symm) (hd e e1 hlt (getElem?_lt a1))
  unfold Spec.lastOf
  rw [Option.map_eq_some_iff]
  constructor
  · rintro ⟨⟨a, b⟩, h1, rfl⟩
    have := List.mem_of_getLast? h1
    rw [List.mem_filter] at this
    simp only [decide_eq_true_eq] at this
    obtain ⟨m1, rfl, m3⟩ := this
    obtain rfl := key a m3
    exact ⟨rfl, m1⟩
  · rintro ⟨rfl, hm⟩
    have hm' : (e', s) ∈ R.filter (fun x => decide (x.2 = s ∧ (w.epics[x.1]?).map (fun ep => ep.ref) = some ep.ref)) := by
      rw [List.mem_filter]
      exact ⟨hm, by simp [he]⟩
    obtain ⟨⟨a, b⟩, hx⟩ := Option.ne_none_iff_exists'.mp (fun h => List.ne_nil_of_mem hm' (List.getLast?_eq_none_iff.mp h))
    have hmem := List.mem_of_getLast? hx
    rw [List.mem_filter] at hmem
    simp only [decide_eq_true_eq] at hmem
    obtain ⟨-, rfl, m3⟩ := hmem
    exact ⟨(a, b), hx, key a m3⟩

/-- C111, different references: at any time `strategy.epics` holds exactly the epics that have the strategy among their
`strategies`, each under its reference; every epic that ever called the strategy is among them. -/
theorem C111_epics (env : Env) {w : World} (hw : w.Init) (hd : Spec.DistinctEpics w) (l : List Cmd) {s : ℕ} {st : Strategy}
    (hs : (w.runCmds env l).strategies[s]? = some st) :
    (∀ r e, st.epics.get? r = some e ↔ ∃ ep, (w.runCmds env l).epics[e]? = some ep ∧ ep.ref = r ∧
      s ∈ ep.strategies.map Prod.snd) ∧
    (∀ e cb, Event.notify s e cb ∈ (w.runCmds env l).log → e ∈ st.epics.map Prod.snd) := by
  have h := run_linked (env := env) l w [] (Linked.init hw)
  rw [List.nil_append] at h
  have main : ∀ r e, st.epics.get? r = some e ↔ ∃ ep, (w.runCmds env l).epics[e]? = some ep ∧ ep.ref = r ∧
      s ∈ ep.strategies.map Prod.snd := by
    intro r e
    rw [h.strat s st hs r]
    constructor
    · intro hl
      have hl0 := hl
      unfold Spec.lastOf at hl
      rw [Option.map_eq_some_iff] at hl
      obtain ⟨⟨a, b⟩, h1, rfl⟩ := hl
      have := List.mem_of_getLast? h1
      rw [List.mem_filter] at this
      simp only [decide_eq_true_eq] at this
      obtain ⟨m1, rfl, m3⟩ := this
      rw [← h.ref a] at m3
      rw [Option.map_eq_some_iff] at m3
      obtain ⟨ep, m4, m5⟩ := m3
      refine ⟨ep, m4, m5, ?_⟩
      rw [h.epic a ep m4]
      exact List.mem_map.mpr ⟨(a, b), by simp [m1], rfl⟩
    · rintro ⟨ep, h1, rfl, h3⟩
      have hr := h.ref e
      rw [h1] at hr
      rcases h0 : w.epics[e]? with _ | ep0
      · rw [h0] at hr; cases hr
      · rw [h0] at hr
        simp only [Option.map_some, Option.some.injEq] at hr
        rw [hr, lastOf_distinct hd h0]
        refine ⟨rfl, ?_⟩
        rw [h.epic e ep h1] at h3
        obtain ⟨⟨a, b⟩, m1, rfl⟩ := List.mem_map.mp h3
        rw [List.mem_filter] at m1
        simp only [decide_eq_true_eq] at m1
        obtain ⟨m1, rfl⟩ := m1
        exact m1
  refine ⟨main, fun e cb hm => ?_⟩
  obtain ⟨ep, h1, h2⟩ : ∃ ep, (w.runCmds env l).epics[e]? = some ep ∧ s ∈ ep.strategies.map Prod.snd := by
    have P : ∀ (l : List Cmd) (w : World), (∀ e cb, Event.notify s e cb ∈ w.log → ∃ ep, w.epics[e]? = some ep ∧
        s ∈ ep.strategies.map Prod.snd) → ∀ e cb, Event.notify s e cb ∈ (w.runCmds env l).log →
        ∃ ep, (w.runCmds env l).epics[e]? = some ep ∧ s ∈ ep.strategies.map Prod.snd := by
      intro l
      induction l with
      | nil => intro w h; exact h
      | cons c l ih =>
        intro w h
        rw [runCmds_cons]
        apply ih
        intro e cb hm
        obtain ⟨L, a1, a2⟩ := exec_log env w c
        rw [a1, List.mem_append] at hm
        have : ∃ ep, w.epics[e]? = some ep ∧ s ∈ ep.strategies.map Prod.snd := by
          rcases hm with hm | hm
          · exact h e cb hm
          · rcases a2 with rfl | ⟨e1, k1, N, -, x, x1, -, rfl, hN⟩
            · cases hm
            · rcases List.mem_cons.mp hm with hm | hm
              · cases hm
              · obtain ⟨s', b1, cb', b2⟩ := hN _ hm
                injection b2 with b2 b3
                subst b2 b3
                exact ⟨x, x1, b1⟩
        obtain ⟨ep, b1, b2⟩ := this
        obtain ⟨ep', c1, -, c2⟩ := exec_regs_mono env w c e ep b1
        exact ⟨ep', c1, c2 s b2⟩
    exact P l w (by rw [hw.log]; intro e cb h; cases h) e cb hm
  exact List.mem_map.mpr ⟨(ep.ref, e), Dict.mem_of_get? ((main ep.ref e).mpr ⟨ep, h1, rfl, h2⟩), rfl⟩

end

/-! ## Cases -/

/-- Two epics with the same reference. -/
def Demo.twins : World := { Demo.world with
  epics := [Epic.new "E" Zone.utc 0 (23 * hourUs) [] [] 0, Epic.new "E" Zone.utc 0 (23 * hourUs) [] [] 0] }

/-- C111 needs different references: of two epics with the same reference the strategy shows the last one only; the other
still calls it. -/
theorem C111_twins : letI := Arith.exact
    let w := Demo.twins.runCmds Demo.quiet [.addStrategy 0 0, .addStrategy 1 0, .tick 0 (Demo.tk 480 10 12)]
    w.strategies.map (fun st => st.epics) = [[("E", 1)], []] ∧ Event.notify 0 0 .everyTick ∈ w.log := by
  decide +kernel

/-- Concrete case of C111: a strategy on two epics, refused when added twice. -/
example : letI := Arith.exact
    let l : List Cmd := [.addStrategy 1 0, .tick 0 (Demo.tk 480 10 12), .addStrategy 0 0, .addStrategy 1 0, .addStrategy 0 1]
    let w := Demo.world.runCmds Demo.quiet l
    Spec.regs Demo.quiet Demo.world l = [(1, 0), (0, 0), (0, 1)] ∧
    w.epics.map (fun ep => ep.strategies.map Prod.snd) = [[0, 1], [0]] ∧
    w.strategies.map (fun st => st.epics.map Prod.snd) = [[1, 0], [0]] := by
  decide +kernel

end Estrade
