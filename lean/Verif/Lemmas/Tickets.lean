import Verif.Tickets
import Verif.Props.Free
import Verif.Lemmas.Births
import Verif.Lemmas.Opening

/-!
# Invariants of programs that build trades
-/

set_option linter.unusedSectionVars false
set_option autoImplicit false

namespace Estrade

/-- Every command the code may issue satisfies `Q`. -/
def AProg.All (Q : AnyCmd → Prop) : AProg → Prop
  | .done => True
  | .raise _ => True
  | .act c k => Q c ∧ ∀ w err, (k w err).All Q

/-- Every command issued by a callback satisfies `Q`. -/
def AEnv.All (env : AEnv) (Q : AnyCmd → Prop) : Prop := ∀ s cb e w, (env s cb e w).All Q

theorem AProg.all_true (p : AProg) : p.All (fun _ => True) := by
  induction p with
  | done => trivial
  | raise e => trivial
  | act c k ih => exact ⟨trivial, fun w err => ih w err⟩

section
variable [Arith]

/-! ## What the new commands leave alone -/

/-- Nothing is registered or created, and trades keep their strategies. -/
structure Stable (w w' : World) : Prop where
  epics : w'.epics = w.epics
  log : w'.log = w.log
  strategies : w'.strategies = w.strategies
  prov : w'.providers.map Provider.trades = w.providers.map Provider.trades
  kinds : w'.providers.map Provider.kind = w.providers.map Provider.kind
  owner : w'.trades.map Trade.strategy = w.trades.map Trade.strategy

theorem Stable.refl (w : World) : Stable w w := ⟨rfl, rfl, rfl, rfl, rfl, rfl⟩

theorem Stable.trans {u v w : World} (h : Stable u v) (g : Stable v w) : Stable u w :=
  ⟨g.epics.trans h.epics, g.log.trans h.log, g.strategies.trans h.strategies, g.prov.trans h.prov, g.kinds.trans h.kinds,
    g.owner.trans h.owner⟩

theorem closeOn_stable {w w' : World} {p i : ℕ} {q : Option ℤ} (h : w.closeOn p i q = .ok w') : Stable w w' := by
  obtain ⟨t, ep, ht, -, rfl⟩ := closeOn_eq h
  refine ⟨rfl, rfl, rfl, ?_, ?_, ?_⟩
  · show (w.providers.modify p _).map Provider.trades = _
    rw [map_modify_eq]; intro x; rfl
  · show (w.providers.modify p _).map Provider.kind = _
    rw [map_modify_eq]; intro x; rfl
  · show (w.trades.set i _).map Trade.strategy = _
    rw [set_eq_modify _ _ _ (fun t => t.closeFromTick ep.lastTick q) ht, map_modify_eq]
    intro x; exact (kept_closeFromTick x _ _).strategy

theorem submitLoop_stable {p i : ℕ} (l : List ℕ) : ∀ (w w' : World), submitLoop p i w l = .ok w' → Stable w w' := by
  induction l with
  | nil => intro w w' h; injection h with h; exact h ▸ .refl w
  | cons j rest ih =>
    intro w w' h
    unfold submitLoop at h
    rcases hi : w.trades[i]? with _ | new
    · rw [hi] at h; cases h
    · rcases hj : w.trades[j]? with _ | t
      · rw [hi, hj] at h; cases h
      · rw [hi, hj] at h
        simp only at h
        split_ifs at h
        · exact ih w w' h
        · rcases hc : w.closeOn p j (some (min t.openedQty new.openQty)) with err | u
          · rw [hc] at h; cases h
          · rw [hc] at h
            have h1 := closeOn_stable hc
            have h2 := ih _ _ h
            refine h1.trans (Stable.trans (v := { u with
              trades := u.trades.modify i (fun x => { x with openQty := x.openQty - min t.openedQty new.openQty }) })
              ⟨rfl, rfl, rfl, rfl, rfl, ?_⟩ h2)
            show (u.trades.modify i _).map Trade.strategy = _
            rw [map_modify_eq]; intro x; rfl
        · exact ih w w' h

theorem submit_cases (w : World) (p i : ℕ) :
    ((w.submit p i).2 ≠ none ∧ (w.submit p i).1 = w) ∨
    ∃ u t, Stable w u ∧ p < w.providers.length ∧ u.trades[i]? = some t ∧
      ((w.submit p i).1 = u ∨ (w.submit p i).1 = u.register p i t.strategy) := by
  unfold World.submit
  rcases hp : w.providers[p]? with _ | pr
  · exact .inl ⟨by simp, rfl⟩
  · rcases hi : w.trades[i]? with _ | t
    · exact .inl ⟨by simp, rfl⟩
    · simp only
      cases pr.kind with
      | custom => exact .inr ⟨w, t, .refl w, getElem?_lt hp, hi, .inr rfl⟩
      | backtests =>
        simp only
        rcases hs : submitLoop p i w (w.openedTrades pr) with err | u
        · exact .inl ⟨by simp, rfl⟩
        · have h1 := submitLoop_stable _ _ _ hs
          have h2 : i < u.trades.length := by
            have := congrArg List.length h1.owner
            rw [List.length_map, List.length_map] at this
            rw [this]; exact getElem?_lt hi
          have h3 := List.getElem?_eq_getElem h2
          right
          refine ⟨u, _, h1, getElem?_lt hp, h3, ?_⟩
          simp only [h3]
          split_ifs
          · exact .inl rfl
          · exact .inr rfl

theorem register_frame (w : World) (p i : ℕ) (s : Option ℕ) :
    (w.register p i s).epics = w.epics ∧ (w.register p i s).log = w.log ∧
    (w.register p i s).providers.length = w.providers.length ∧
    (w.register p i s).strategies.length = w.strategies.length ∧
    (w.register p i s).providers.map Provider.kind = w.providers.map Provider.kind := by
  obtain ⟨e1, e2, e3, e4, e5⟩ := register_eq w p i s
  refine ⟨e2, e5, by rw [e3]; simp, ?_, ?_⟩
  · rw [e4]; cases s <;> simp
  · rw [e3, map_modify_eq]; intro x; rfl

theorem submit_frame (w : World) (p i : ℕ) :
    (w.submit p i).1.epics = w.epics ∧ (w.submit p i).1.log = w.log ∧
    (w.submit p i).1.providers.length = w.providers.length ∧
    (w.submit p i).1.strategies.length = w.strategies.length ∧
    (w.submit p i).1.providers.map Provider.kind = w.providers.map Provider.kind := by
  rcases submit_cases w p i with ⟨-, h⟩ | ⟨u, t, h1, -, -, h | h⟩
  · rw [h]; exact ⟨rfl, rfl, rfl, rfl, rfl⟩
  · rw [h]
    exact ⟨h1.epics, h1.log, by simpa using congrArg List.length h1.prov, by rw [h1.strategies], h1.kinds⟩
  · rw [h]
    obtain ⟨g1, g2, g3, g4, g5⟩ := register_frame u p i t.strategy
    exact ⟨g1.trans h1.epics, g2.trans h1.log, g3.trans (by simpa using congrArg List.length h1.prov),
      g4.trans (by rw [h1.strategies]), g5.trans h1.kinds⟩

theorem build_cases (w : World) (k : Ticket) :
    ((w.build k).2 ≠ none ∧ (w.build k).1 = w) ∨
    (w.build k = ({ w with trades := w.trades ++ [k.trade] }, none) ∧ k.epic < w.epics.length ∧
      ∀ s, k.strategy = some s → s < w.strategies.length) := by
  unfold World.build
  split_ifs with h
  · refine .inr ⟨rfl, h.1, fun s hs => ?_⟩
    have := h.2
    rw [hs] at this
    simpa using this
  · exact .inl ⟨by simp, rfl⟩

theorem place_cases (w : World) (p : ℕ) (k : Ticket) :
    ((w.place p k).2 ≠ none ∧ (w.place p k).1 = w) ∨
    (w.place p k = ({ w with trades := w.trades ++ [k.trade] } : World).submit p w.trades.length ∧
      p < w.providers.length ∧ k.epic < w.epics.length ∧ ∀ s, k.strategy = some s → s < w.strategies.length) := by
  unfold World.place
  split_ifs with hp
  · rcases build_cases w k with ⟨h1, h2⟩ | ⟨h1, h2, h3⟩
    · left
      rcases hb : w.build k with ⟨u, err⟩
      rw [hb] at h1 h2
      cases err with
      | none => exact absurd rfl h1
      | some e => exact ⟨by simp [andThen], h2⟩
    · right
      rw [h1]
      exact ⟨rfl, hp, h2, h3⟩
  · exact .inl ⟨by simp, rfl⟩

/-- The commands of this model that are not those of `Free.lean`. -/
def AnyCmd.IsNew (c : AnyCmd) : Prop := ∀ sc, c ≠ .set sc

theorem aexec_frame (tick : TickFn) (w : World) (c : AnyCmd) (hc : c.IsNew) :
    (w.aexec tick c).1.epics = w.epics ∧ (w.aexec tick c).1.log = w.log ∧
    (w.aexec tick c).1.providers.length = w.providers.length ∧
    (w.aexec tick c).1.strategies.length = w.strategies.length := by
  cases c with
  | set c => exact absurd rfl (hc c)
  | build k =>
    show (w.build k).1.epics = _ ∧ _
    rcases build_cases w k with ⟨-, h⟩ | ⟨h, -⟩ <;> simp [World.aexec, h]
  | submit p t =>
    obtain ⟨h1, h2, h3, h4, -⟩ := submit_frame w p t
    exact ⟨h1, h2, h3, h4⟩
  | place p k =>
    show (w.place p k).1.epics = _ ∧ (w.place p k).1.log = _ ∧ (w.place p k).1.providers.length = _ ∧
      (w.place p k).1.strategies.length = _
    rcases place_cases w p k with ⟨-, h⟩ | ⟨h, -⟩
    · rw [h]; exact ⟨rfl, rfl, rfl, rfl⟩
    · rw [h]
      obtain ⟨h1, h2, h3, h4, -⟩ := submit_frame ({ w with trades := w.trades ++ [k.trade] } : World) p w.trades.length
      exact ⟨h1, h2, h3, h4⟩
  | request p t i =>
    show (w.request p t i).1.epics = _ ∧ (w.request p t i).1.log = _ ∧ (w.request p t i).1.providers.length = _ ∧
      (w.request p t i).1.strategies.length = _
    unfold World.request
    split_ifs
    · exact ⟨rfl, rfl, by simp [World.modProvider], rfl⟩
    · exact ⟨rfl, rfl, rfl, rfl⟩

/-! ## Invariants of runs -/

/-- A property that every run keeps, if user code issues commands in `Q` only. -/
structure Lasting (V : Prop) (Q : AnyCmd → Prop) (I : World → Prop) : Prop where
  prim : ∀ u v, I u → Prim V u v → I v
  rest : ∀ u v : World, u.trades = v.trades → u.providers = v.providers → u.strategies = v.strategies →
    u.epics.length = v.epics.length → I u → I v
  valid : V → ∀ c, Q (.set c) → Spec.SetValid c
  new : ∀ (tick : TickFn) (w : World) (c : AnyCmd), Q c → c.IsNew → I w → I (w.aexec tick c).1

theorem fexec_other (tick : TickFn) (w : World) (c : SetCmd) (hc : Spec.NoTick c) :
    w.fexec tick c = w.execSet Spec.idle c := by
  cases c with
  | assign e s => rfl
  | cmd c =>
    cases c with
    | tick e k => exact absurd rfl (hc e k)
    | _ => rfl

section
variable {V : Prop} {Q : AnyCmd → Prop} {I : World → Prop} (hL : Lasting V Q I)
include hL

theorem lasting_aexec {tick : TickFn} (ht : ∀ w e k, EpicsOk w → I w → EpicsOk (tick w e k).1 ∧ I (tick w e k).1)
    (w : World) (c : AnyCmd) (hc : Q c) (h1 : EpicsOk w) (h2 : I w) :
    EpicsOk (w.aexec tick c).1 ∧ I (w.aexec tick c).1 := by
  by_cases hn : c.IsNew
  · obtain ⟨e1, -, e2, -⟩ := aexec_frame tick w c hn
    refine ⟨?_, hL.new tick w c hc hn h2⟩
    unfold EpicsOk
    rw [e1, e2]; exact h1
  · unfold AnyCmd.IsNew at hn
    push Not at hn
    obtain ⟨sc, rfl⟩ := hn
    by_cases hk : Spec.NoTick sc
    · have := runSets_inv (V := V) (P := I) hL.prim hL.rest [sc] (fun v c hc' => by
        rw [List.mem_singleton] at hc'; subst hc'; exact hL.valid v c hc) w h1 h2
      show EpicsOk (w.fexec tick sc).1 ∧ I (w.fexec tick sc).1
      rw [fexec_other tick w sc hk]
      exact this
    · unfold Spec.NoTick at hk
      push Not at hk
      obtain ⟨e, k, rfl⟩ := hk
      exact ht w e k h1 h2

theorem lasting_prog {tick : TickFn} (ht : ∀ w e k, EpicsOk w → I w → EpicsOk (tick w e k).1 ∧ I (tick w e k).1)
    (p : AProg) (hp : p.All Q) (w : World) (h1 : EpicsOk w) (h2 : I w) :
    EpicsOk (p.run tick w).1 ∧ I (p.run tick w).1 := by
  induction p generalizing w with
  | done => exact ⟨h1, h2⟩
  | raise e => exact ⟨h1, h2⟩
  | act c k ih =>
    obtain ⟨g1, g2⟩ := lasting_aexec hL ht w c hp.1 h1 h2
    exact ih _ _ (hp.2 _ _) _ g1 g2

end

theorem andThen_lasting {P : World → Prop} {r : World × Option PyErr} {f : World → World × Option PyErr} (h1 : P r.1)
    (h2 : ∀ u, P u → P (f u).1) : P (andThen r f).1 := by
  obtain ⟨u, err⟩ := r
  cases err with
  | none => exact h2 u h1
  | some e => exact h1

section
variable {P : World → Prop} {hook : Hook} (hh : ∀ s cb e w, P w → P (hook s cb e w).1)
  (hlog : ∀ (w : World) (ev : Event), P w → P { w with log := w.log ++ [ev] })
  (hact : ∀ (w : World) (s : ℕ) (dt : DT), P w → P (w.modStrategy s (fun st => (st.isActive dt).2)))
include hh hlog

theorem hcall_keeps (w : World) (s : ℕ) (cb : Cb) (e : ℕ) (h : P w) : P (w.hcall hook s cb e).1 :=
  hh s cb e _ (hlog w _ h)

theorem hcallIf_keeps (c : Bool) (w : World) (s : ℕ) (cb : Cb) (e : ℕ) (h : P w) : P (w.hcallIf hook c s cb e).1 := by
  unfold World.hcallIf
  split_ifs
  · exact hcall_keeps hh hlog w s cb e h
  · exact h

include hact

theorem hexecStrategy_keeps (w : World) (e s : ℕ) (b : Bool) (h : P w) : P (w.hexecStrategy hook e s b).1 := by
  unfold World.hexecStrategy
  rcases w.epics[e]? with _ | ep
  · exact h
  · rcases hs : w.strategies[s]? with _ | st
    · exact h
    · simp only
      have h0 : P { w with strategies := w.strategies.set s (st.isActive ep.lastTick.dt).2 } := by
        have := hact w s ep.lastTick.dt h
        unfold World.modStrategy at this
        rwa [← set_eq_modify _ _ _ (fun st => (st.isActive ep.lastTick.dt).2) hs] at this
      split_ifs
      · unfold World.hnotifyAll
        refine andThen_lasting ?_ fun u hu => andThen_lasting (hcallIf_keeps hh hlog _ _ _ _ _ hu)
          fun u hu => hcall_keeps hh hlog _ _ _ _ hu
        split_ifs <;> exact hcallIf_keeps hh hlog _ _ _ _ _ h0
      · exact h0

theorem hexecStrategies_keeps (e : ℕ) (b : Bool) (n : ℕ) (l : List ℕ) :
    ∀ w : World, P w → P (hexecStrategies hook e b n w l).1 := by
  induction l with
  | nil => intro w h; unfold hexecStrategies; split_ifs <;> exact h
  | cons s rest ih =>
    intro w h
    unfold hexecStrategies
    split_ifs
    · exact andThen_lasting (hexecStrategy_keeps hh hlog hact w e s b h) ih
    · exact h

end

theorem lasting_tick {V : Prop} {Q : AnyCmd → Prop} {I : World → Prop} (hL : Lasting V Q I) {env : AEnv} (henv : env.All Q)
    (d : ℕ) : ∀ w e k, EpicsOk w → I w → EpicsOk (World.htick env.hook d w e k).1 ∧ I (World.htick env.hook d w e k).1 := by
  induction d with
  | zero => intro w e k h1 h2; exact ⟨h1, h2⟩
  | succ d ih =>
    intro w e k h1 h2
    unfold World.htick
    rcases hep : w.epics[e]? with _ | ep
    · exact ⟨h1, h2⟩
    · simp only
      split_ifs
      · exact ⟨h1, h2⟩
      · set x := (ep.accept { k with dt := k.dt.to ep.zone }).1 with hx
        set w1 : World := { w with epics := w.epics.set e x, log := w.log ++ [.accepted e { k with dt := k.dt.to ep.zone }] }
          with hw1
        have hprim : ∀ u v, EpicsOk u ∧ I u → Prim V u v → EpicsOk v ∧ I v := fun u v hu hp =>
          ⟨Steps.epicsOk (.single hp) hu.1, hL.prim u v hu.2 hp⟩
        have g1 : EpicsOk w1 ∧ I w1 := by
          refine ⟨fun y hy => ?_, hL.rest w w1 rfl rfl rfl (by simp [hw1]) h2⟩
          rcases List.mem_or_eq_of_mem_set hy with hy | rfl
          · exact h1 y hy
          · exact h1 ep (List.mem_of_getElem? hep)
        rcases (ep.accept { k with dt := k.dt.to ep.zone }).2 with _ | err
        · simp only
          refine hexecStrategies_keeps (P := fun u => EpicsOk u ∧ I u) ?_ ?_ ?_ _ _ _ _ _ ?_
          · intro s cb e w hw
            exact lasting_prog hL ih _ (henv s cb e w) w hw.1 hw.2
          · intro u ev hu
            exact ⟨hu.1, hL.rest u _ rfl rfl rfl rfl hu.2⟩
          · intro u s dt hu
            exact hprim u _ hu (.strat s _ (fun st => ⟨(isActive_keeps st dt).1, (isActive_keeps st dt).2.1⟩))
          · exact Steps.inv (I := fun u => EpicsOk u ∧ I u) (V := V) hprim (updateOpenTrades_steps _ _ _) g1
        · exact g1

/-- Lasting properties hold after every run. -/
theorem lasting_run {V : Prop} {Q : AnyCmd → Prop} {I : World → Prop} (hL : Lasting V Q I) {env : AEnv} (henv : env.All Q)
    (d : ℕ) (l : List AnyCmd) (hl : ∀ c ∈ l, Q c) : ∀ w : World, EpicsOk w → I w →
      EpicsOk (w.arun env d l) ∧ I (w.arun env d l) := by
  induction l with
  | nil => intro w h1 h2; exact ⟨h1, h2⟩
  | cons c l ih =>
    intro w h1 h2
    obtain ⟨g1, g2⟩ := lasting_aexec hL (lasting_tick hL henv d) w c (hl c (by simp)) h1 h2
    exact ih (fun c hc => hl c (List.mem_cons_of_mem _ hc)) _ g1 g2

/-! ## A placed trade is the trade `epic.open_trade` would open, with other values -/

theorem closeOn_append {w : World} {p i : ℕ} {q : Option ℤ} (x : Trade) (hi : i < w.trades.length) :
    ({ w with trades := w.trades ++ [x] } : World).closeOn p i q =
      (w.closeOn p i q).map (fun u => { u with trades := u.trades ++ [x] }) := by
  unfold World.closeOn
  have h1 : ({ w with trades := w.trades ++ [x] } : World).trades[i]? = w.trades[i]? := List.getElem?_append_left hi
  rw [h1, List.getElem?_eq_getElem hi]
  simp only
  rcases w.epics[(w.trades[i]).epic]? with _ | ep
  · rfl
  · simp only [Except.map, World.setTrade, World.modProvider]
    rw [List.set_append_left _ _ hi]

theorem submitLoop_eq {p n : ℕ} (l : List ℕ) : ∀ (w : World) (new : Trade), w.trades.length = n → (∀ i ∈ l, i < n) →
    submitLoop p n { w with trades := w.trades ++ [new] } l =
      (netLoop p w new l).map (fun r => { r.1 with trades := r.1.trades ++ [r.2] }) := by
  induction l with
  | nil => intro w new _ _; rfl
  | cons j rest ih =>
    intro w new hn hl
    have hj : j < n := hl j (by simp)
    have hr : ∀ i ∈ rest, i < n := fun i hi => hl i (List.mem_cons_of_mem _ hi)
    have h1 : ({ w with trades := w.trades ++ [new] } : World).trades[n]? = some new := by
      show (w.trades ++ [new])[n]? = some new
      rw [← hn]; simp
    have h2 : ({ w with trades := w.trades ++ [new] } : World).trades[j]? = some (w.trades[j]'(by omega)) := by
      show (w.trades ++ [new])[j]? = _
      rw [List.getElem?_append_left (by omega), List.getElem?_eq_getElem (by omega)]
    unfold submitLoop netLoop
    rw [h1, h2, List.getElem?_eq_getElem (show j < w.trades.length by omega)]
    simp only
    split_ifs
    · exact ih w new hn hr
    · rw [closeOn_append new (by omega)]
      rcases hc : w.closeOn p j (some (min (w.trades[j]'(by omega)).openedQty new.openQty)) with err | u
      · rfl
      · have hlen : u.trades.length = n := by
          have := congrArg List.length (closeOn_stable hc).owner
          rw [List.length_map, List.length_map] at this
          omega
        have hmod : ∀ q : ℤ, (u.trades ++ [new]).modify n (fun t => { t with openQty := t.openQty - q }) =
            u.trades ++ [{ new with openQty := new.openQty - q }] := by
          intro q
          rw [← hlen]
          apply List.ext_getElem?
          intro m
          rw [List.getElem?_modify]
          by_cases hm : m < u.trades.length
          · rw [List.getElem?_append_left hm, List.getElem?_append_left hm]
            have : u.trades.length ≠ m := by omega
            simp [this]
          · by_cases hm' : m = u.trades.length
            · subst hm'; simp
            · rw [List.getElem?_eq_none (by simp; omega), List.getElem?_eq_none (by simp; omega)]; rfl
        show submitLoop p n { u with trades := (u.trades ++ [new]).modify n _ } rest = _
        rw [hmod]
        exact ih u _ hlen hr
    · exact ih w new hn hr

/-- `place` in terms of `providerOpen`. -/
theorem place_eq {w : World} (hb : BookInv w) {p : ℕ} (hp : p < w.providers.length) {k : Ticket}
    (he : k.epic < w.epics.length) (hs : ∀ s, k.strategy = some s → s < w.strategies.length) :
    ∃ w', w.providerOpen p k.trade = .ok w' ∧ w.place p k = (w', none) := by
  have hpr := List.getElem?_eq_getElem hp
  set pr := w.providers[p] with hpr'
  have hplace : w.place p k = ({ w with trades := w.trades ++ [k.trade] } : World).submit p w.trades.length := by
    unfold World.place World.build
    rw [if_pos hp, if_pos ⟨he, by
      rcases hk : k.strategy with _ | s
      · rfl
      · simpa using hs s hk⟩]
    rfl
  have hop : ({ w with trades := w.trades ++ [k.trade] } : World).openedTrades pr = w.openedTrades pr := by
    unfold World.openedTrades
    apply List.filter_congr
    intro i hi
    have := hb.provLt p pr hpr i (List.mem_reverse.mp hi)
    have h1 : (w.trades ++ [k.trade])[i]? = w.trades[i]? := List.getElem?_append_left this
    simp only [h1]
  have hlt : ∀ i ∈ w.openedTrades pr, i < w.trades.length := fun i hi =>
    hb.provLt p pr hpr i (List.mem_reverse.mp (List.mem_filter.mp hi).1)
  rw [hplace]
  unfold World.submit World.providerOpen
  have ht : ({ w with trades := w.trades ++ [k.trade] } : World).trades[w.trades.length]? = some k.trade := by
    show (w.trades ++ [k.trade])[w.trades.length]? = _
    simp
  rw [ht]
  rw [hpr]
  simp only
  rcases hk : pr.kind with _ | _
  · simp only
    rw [hop, submitLoop_eq _ w k.trade rfl hlt]
    obtain ⟨r, hr⟩ := netLoop_ok (p := p) (w.openedTrades pr) w k.trade (fun i hi => by
      have h1 := List.getElem?_eq_getElem (hlt i hi)
      obtain ⟨ep, hep⟩ := hb.epicOk i _ h1
      exact ⟨_, ep, h1, hep⟩)
    rw [hr]
    simp only [Except.map, bind, Except.bind]
    have hlen : r.1.trades.length = w.trades.length := by
      obtain ⟨u, t'⟩ := r
      exact (netLoop_length _ _ _ _ _ hr).1
    have h3 : (r.1.trades ++ [r.2])[w.trades.length]? = some r.2 := by rw [← hlen]; simp
    have hst : r.2.strategy = k.trade.strategy := by
      obtain ⟨u, t'⟩ := r
      exact (netLoop_length _ _ _ _ _ hr).2.2.1
    simp only [h3]
    split_ifs
    · exact ⟨_, rfl, rfl⟩
    · refine ⟨_, rfl, ?_⟩
      rw [hst, hlen]
  · exact ⟨_, rfl, rfl⟩

/-! ## Orders to any provider keep the books in order -/

theorem closeOn_quiet {w w' : World} {p i : ℕ} {q : Option ℤ} (h : w.closeOn p i q = .ok w') : Quiet w w' := by
  obtain ⟨t, ep, ht, -, rfl⟩ := closeOn_eq h
  refine ⟨?_, rfl, by simp [World.modProvider, World.setTrade], ?_⟩
  · show (w.providers.modify p _).map Provider.trades = _
    rw [map_modify_eq]; intro x; rfl
  · show KeptAll w.trades (w.trades.set i _)
    rw [set_eq_modify _ _ _ (fun t => t.closeFromTick ep.lastTick q) ht]
    exact KeptAll.modify _ _ _ (fun t => kept_closeFromTick t _ _)

theorem closeOn_nonNeg {w w' : World} {p i : ℕ} {q : Option ℤ} (h : w.closeOn p i q = .ok w') (hq : QOk q) (hn : NonNeg w) :
    NonNeg w' := by
  obtain ⟨t, ep, ht, -, rfl⟩ := closeOn_eq h
  intro u hu
  have hu : u ∈ w.trades.set i (t.closeFromTick ep.lastTick q) := hu
  rcases List.mem_or_eq_of_mem_set hu with hu | rfl
  · exact hn u hu
  · have ht0 := hn t (List.mem_iff_getElem?.mpr ⟨i, ht⟩)
    unfold Trade.closeFromTick
    rw [Trade.close_openedQty]
    have := Trade.closeQty_bounds (t := t.updateFromTick ep.lastTick)
      (by unfold Trade.updateFromTick; simpa using ht0) (q := q) hq
    linarith [this.2]

theorem Quiet.refl (w : World) : Quiet w w := ⟨rfl, rfl, rfl, KeptAll.refl _⟩

theorem Quiet.trans {u v w : World} (h : Quiet u v) (g : Quiet v w) : Quiet u w :=
  ⟨g.prov.trans h.prov, g.strat.trans h.strat, g.len.trans h.len, h.kept.trans g.kept⟩

theorem netLoop_quiet {p : ℕ} (l : List ℕ) : ∀ (w w' : World) (new new' : Trade), netLoop p w new l = .ok (w', new') →
    Quiet w w' ∧ w'.epics = w.epics ∧ (∃ n, new' = { new with openQty := n }) ∧
      (0 ≤ new.openQty → NonNeg w → NonNeg w' ∧ 0 ≤ new'.openQty) := by
  induction l with
  | nil =>
    intro w w' new new' h
    injection h with h; injection h with h1 h2
    subst h1; subst h2
    exact ⟨.refl w, rfl, ⟨new.openQty, rfl⟩, fun hq hn => ⟨hn, hq⟩⟩
  | cons i rest ih =>
    intro w w' new new' h
    unfold netLoop at h
    split at h
    · cases h
    · rename_i t ht
      split_ifs at h
      · exact ih _ _ _ _ h
      · simp only at h
        rcases hc : w.closeOn p i (some (min t.openedQty new.openQty)) with err | u
        · rw [hc] at h; cases h
        · rw [hc] at h
          obtain ⟨a, b, ⟨n, c⟩, d⟩ := ih _ _ _ _ h
          refine ⟨(closeOn_quiet hc).trans a, b.trans (closeOn_stable hc).epics, ⟨n, c⟩, fun hq hn => ?_⟩
          have h1 := hn t (List.mem_iff_getElem?.mpr ⟨i, ht⟩)
          exact d (by simp only; omega) (closeOn_nonNeg hc (fun m hm => by injection hm with hm; omega) hn)
      · exact ih _ _ _ _ h

theorem happend {w : World} (hn : NonNeg w) (t : Trade) (h1 : t.closes = []) (h2 : 0 ≤ t.openQty) :
    NonNeg { w with trades := w.trades ++ [t] } := by
  intro u hu
  simp only [List.mem_append, List.mem_singleton] at hu
  rcases hu with hu | rfl
  · exact hn u hu
  · unfold Trade.openedQty Trade.closedQty; rw [h1]; simpa using h2

theorem Fitting.later {w w' : World} {t : Trade} {p : ℕ} (h : Fitting w t p) (hq : Quiet w w') (he : w'.epics = w.epics)
    (n : ℤ) : Fitting w' { t with openQty := n } p := by
  refine ⟨by rw [he]; exact h.epic, ?_, fun s hs => ?_⟩
  · have := congrArg List.length hq.prov
    rw [List.length_map, List.length_map] at this
    rw [this]; exact h.prov
  · have := congrArg List.length hq.strat
    rw [List.length_map, List.length_map] at this
    rw [this]; exact h.strat s hs

/-- What `provider.open_trade` of a new trade keeps, whatever the provider. -/
theorem providerOpen_books {w w' : World} (hb : BookInv w) {t : Trade} {p : ℕ} (hf : Fitting w t p) (hc : t.closes = [])
    (h : w.providerOpen p t = .ok w') : BookInv w' ∧ (0 ≤ t.openQty → NonNeg w → NonNeg w') := by
  unfold World.providerOpen at h
  rcases hp : w.providers[p]? with _ | pr
  · rw [hp] at h; cases h
  · rw [hp] at h
    simp only at h
    rcases hk : pr.kind with _ | _
    · rw [hk] at h
      simp only at h
      rcases hr : netLoop p w t (w.openedTrades pr) with err | ⟨u, t'⟩
      · rw [hr] at h; cases h
      · rw [hr] at h
        simp only [bind, Except.bind] at h
        obtain ⟨q1, q2, ⟨n, rfl⟩, q3⟩ := netLoop_quiet _ _ _ _ _ hr
        have hu : BookInv u := hb.quiet q1 (by rw [q2])
        have hfu := hf.later q1 q2 n
        split_ifs at h with hle
        · injection h with h; subst h
          exact ⟨hu.alloc hfu hle, fun h0 hn => happend (q3 h0 hn).1 _ hc (q3 h0 hn).2⟩
        · injection h with h; subst h
          refine ⟨hu.opened hfu, fun h0 hn => ?_⟩
          unfold NonNeg
          rw [(register_epics _ _ _ _).2.2]
          exact happend (q3 h0 hn).1 _ hc (q3 h0 hn).2
    · rw [hk] at h
      simp only at h
      injection h with h; subst h
      refine ⟨hb.opened hf, fun h0 hn => ?_⟩
      unfold NonNeg
      rw [(register_epics _ _ _ _).2.2]
      exact happend hn _ hc h0

theorem request_quiet (w : World) (p t i : ℕ) : Quiet w (w.request p t i).1 ∧ (w.request p t i).1.trades = w.trades := by
  unfold World.request
  split_ifs
  · refine ⟨⟨?_, rfl, rfl, KeptAll.refl _⟩, rfl⟩
    show (w.providers.modify p _).map Provider.trades = _
    rw [map_modify_eq]; intro x; rfl
  · exact ⟨.refl w, rfl⟩

theorem place_books {w : World} (hb : BookInv w) (p : ℕ) (k : Ticket) :
    BookInv (w.place p k).1 ∧ (0 ≤ k.qty → NonNeg w → NonNeg (w.place p k).1) := by
  rcases place_cases w p k with ⟨-, h⟩ | ⟨-, h1, h2, h3⟩
  · rw [h]; exact ⟨hb, fun _ hn => hn⟩
  · obtain ⟨w', h4, h5⟩ := place_eq hb h1 h2 h3
    rw [h5]
    exact providerOpen_books hb ⟨⟨_, List.getElem?_eq_getElem h2⟩, h1, h3⟩ rfl h4

theorem BookInv.prim {V : Prop} {u v : World} (hu : BookInv u) (h : Prim V u v) : BookInv v := by
  rcases h.registry with hq | ⟨t, p, hf, hq, rfl⟩ | ⟨t, p, hf, rfl⟩
  · exact hu.quiet hq (by rw [h.epics])
  · exact hu.alloc hf.fitting hq
  · exact hu.opened hf.fitting

theorem BookInv.same {u v : World} (e1 : u.trades = v.trades) (e2 : u.providers = v.providers)
    (e3 : u.strategies = v.strategies) (e4 : u.epics.length = v.epics.length) (hu : BookInv u) : BookInv v :=
  hu.quiet ⟨by rw [e2], by rw [e3], by rw [e1], by rw [e1]; exact KeptAll.refl _⟩ e4.symm

/-! ## The books of any program -/

/-- The lists of providers `P` and of strategies `S`, and the owners of trades `O`, tally. -/
structure Tally (P S : List (List ℕ)) (O : List (Option ℕ)) : Prop where
  lt : ∀ x ∈ P, ∀ i ∈ x, i < O.length
  own : ∀ (i s : ℕ), O[i]? = some (some s) → s < S.length
  cnt : ∀ (s : ℕ) x, S[s]? = some x → ∀ i, x.count i = if O[i]? = some (some s) then P.flatten.count i else 0

theorem Tally.fresh {P S : List (List ℕ)} {O : List (Option ℕ)} (h : Tally P S O) (i : ℕ) (hi : O.length ≤ i) :
    P.flatten.count i = 0 := by
  rw [List.count_eq_zero]
  intro hm
  obtain ⟨x, hx, hxi⟩ := List.mem_flatten.mp hm
  have := h.lt x hx i hxi
  omega

theorem Tally.snoc {P S : List (List ℕ)} {O : List (Option ℕ)} (h : Tally P S O) {o : Option ℕ}
    (ho : ∀ s, o = some s → s < S.length) : Tally P S (O ++ [o]) := by
  refine ⟨fun x hx i hi => ?_, fun i s hi => ?_, fun s x hx i => ?_⟩
  · have := h.lt x hx i hi
    simp only [List.length_append, List.length_singleton]; omega
  · rcases Nat.lt_trichotomy i O.length with hlt | rfl | hgt
    · rw [List.getElem?_append_left hlt] at hi
      exact h.own i s hi
    · simp at hi; exact ho s hi
    · rw [List.getElem?_eq_none (by simp; omega)] at hi; cases hi
  · by_cases hlt : i < O.length
    · rw [List.getElem?_append_left hlt]; exact h.cnt s x hx i
    · rw [h.cnt s x hx i, h.fresh i (by omega)]; simp

theorem count_modify (P : List (List ℕ)) (p i j : ℕ) (hp : p < P.length) :
    (P.modify p (· ++ [i])).flatten.count j = P.flatten.count j + if i = j then 1 else 0 := by
  induction P generalizing p with
  | nil => simp at hp
  | cons x P ih =>
    cases p with
    | zero =>
      simp only [List.modify_zero_cons, List.flatten_cons, List.count_append, List.count_singleton]
      by_cases h : i = j
      · subst h; simp; omega
      · simp [h]
    | succ p =>
      simp only [List.modify_succ_cons, List.flatten_cons, List.count_append]
      rw [ih p (by simpa using hp)]; omega

theorem Tally.register {P S : List (List ℕ)} {O : List (Option ℕ)} (h : Tally P S O) {p i : ℕ} (hp : p < P.length) :
    ∀ {o : Option ℕ}, O[i]? = some o →
    Tally (P.modify p (· ++ [i])) (match o with | none => S | some s => S.modify s (· ++ [i])) O := by
  intro o ho
  have hlen : (match o with | none => S | some s => S.modify s (· ++ [i])).length = S.length := by
    cases o <;> simp
  refine ⟨fun x hx j hj => ?_, fun j s hj => by rw [hlen]; exact h.own j s hj, fun s x hx j => ?_⟩
  · obtain ⟨n, hn⟩ := List.mem_iff_getElem?.mp hx
    rw [List.getElem?_modify] at hn
    rcases hP : P[n]? with _ | y
    · rw [hP] at hn; cases hn
    · rw [hP] at hn
      have hy := h.lt y (List.mem_of_getElem? hP)
      simp only [Option.map_eq_map, Option.map_some, Option.some.injEq] at hn
      split_ifs at hn
      · subst hn
        rcases List.mem_append.mp hj with hj | hj
        · exact hy j hj
        · rw [List.mem_singleton.mp hj]; exact getElem?_lt ho
      · subst hn; exact hy j hj
  · rw [count_modify P p i j hp]
    cases o with
    | none =>
      rw [h.cnt s x hx j]
      by_cases hij : i = j
      · subst hij; rw [ho]; simp
      · simp [hij]
    | some r =>
      simp only [List.getElem?_modify] at hx
      rcases hS : S[s]? with _ | y
      · rw [hS] at hx; cases hx
      · rw [hS] at hx
        have hy := h.cnt s y hS j
        simp only [Option.map_eq_map, Option.map_some, Option.some.injEq] at hx
        by_cases hrs : r = s
        · subst hrs
          rw [if_pos rfl] at hx
          subst hx
          rw [List.count_append, hy, List.count_singleton]
          by_cases hij : i = j
          · subst hij; rw [ho]; simp
          · simp [hij]
        · rw [if_neg hrs] at hx
          subst hx
          rw [hy]
          by_cases hij : i = j
          · subst hij; rw [ho]; simp [hrs]
          · simp [hij]

theorem count_owned (S : List (List ℕ)) (i c : ℕ) : ∀ (o : Option ℕ), (∀ s, o = some s → s < S.length) →
    (∀ (s : ℕ) x, S[s]? = some x → x.count i = if o = some s then c else 0) →
    S.flatten.count i = if o.isSome then c else 0 := by
  induction S with
  | nil =>
    intro o h1 _
    cases o with
    | none => rfl
    | some s => simpa using h1 s rfl
  | cons x S ih =>
    intro o h1 h2
    rw [List.flatten_cons, List.count_append, h2 0 x rfl]
    rcases o with _ | s
    · rw [ih none (by simp) (fun s y hy => by simpa using h2 (s + 1) y hy)]; rfl
    · cases s with
      | zero =>
        rw [ih none (by simp) (fun s y hy => by simpa using h2 (s + 1) y hy)]; simp
      | succ s =>
        rw [ih (some s) (fun r hr => by injection hr with hr; subst hr; simpa using h1 _ rfl)
          (fun r y hy => by simpa using h2 (r + 1) y hy)]
        simp

/-- The books of a world tally. -/
def Tallied (w : World) : Prop :=
  Tally (w.providers.map Provider.trades) (w.strategies.map Strategy.trades) (w.trades.map Trade.strategy)

theorem Quiet.owner {w w' : World} (h : Quiet w w') : w'.trades.map Trade.strategy = w.trades.map Trade.strategy := by
  apply List.ext_getElem?
  intro i
  rw [List.getElem?_map, List.getElem?_map]
  rcases hi : w.trades[i]? with _ | t
  · rw [List.getElem?_eq_none (by rw [h.len]; exact List.getElem?_eq_none_iff.mp hi)]
  · obtain ⟨t', h1, h2⟩ := h.kept i t hi
    rw [h1]; simp [h2.strategy]

theorem Tallied.quiet {w w' : World} (h : Tallied w) (hq : Quiet w w') : Tallied w' := by
  unfold Tallied
  rw [hq.prov, hq.strat, hq.owner]; exact h

theorem Tallied.stable {w w' : World} (h : Tallied w) (hq : Stable w w') : Tallied w' := by
  unfold Tallied
  rw [hq.prov, hq.strategies, hq.owner]; exact h

theorem Tallied.snoc {w : World} (h : Tallied w) {t : Trade} (ht : ∀ s, t.strategy = some s → s < w.strategies.length) :
    Tallied { w with trades := w.trades ++ [t] } := by
  unfold Tallied
  show Tally _ _ ((w.trades ++ [t]).map Trade.strategy)
  rw [List.map_append]
  exact Tally.snoc h (by simpa using ht)

theorem Tallied.register {w : World} (h : Tallied w) {p i : ℕ} {t : Trade} (hp : p < w.providers.length)
    (ht : w.trades[i]? = some t) : Tallied (w.register p i t.strategy) := by
  obtain ⟨e1, -, e3, e4, -⟩ := register_eq w p i t.strategy
  unfold Tallied
  rw [e1, e3, e4, ← map_modify_comm Provider.trades _ (· ++ [i]) (fun _ => rfl)]
  have := Tally.register h (p := p) (i := i) (o := t.strategy) (by simpa using hp) (by rw [List.getElem?_map, ht]; rfl)
  rcases hs : t.strategy with _ | s
  · rw [hs] at this; exact this
  · rw [hs] at this
    simp only
    rw [← map_modify_comm Strategy.trades _ (· ++ [i]) (fun _ => rfl)]
    exact this

theorem Tallied.submit {w : World} (h : Tallied w) (p i : ℕ) : Tallied (w.submit p i).1 := by
  rcases submit_cases w p i with ⟨-, h'⟩ | ⟨u, t, h1, h2, h3, h' | h'⟩
  · rw [h']; exact h
  · rw [h']; exact h.stable h1
  · rw [h']
    refine (h.stable h1).register ?_ h3
    have := congrArg List.length h1.prov
    rw [List.length_map, List.length_map] at this
    rw [this]; exact h2

/-- The books of every program tally. -/
theorem tallied_lasting : Lasting False (fun _ => True) Tallied where
  prim u v hu h := by
    rcases h.registry with hq | ⟨t, p, hf, -, rfl⟩ | ⟨t, p, hf, rfl⟩
    · exact hu.quiet hq
    · exact hu.snoc hf.strat
    · exact (hu.snoc hf.strat).register hf.prov (by simp)
  rest u v e1 e2 e3 _ hu := by unfold Tallied at hu ⊢; rw [← e1, ← e2, ← e3]; exact hu
  valid v := v.elim
  new tick w c _ hc hw := by
    cases c with
    | set c => exact absurd rfl (hc c)
    | build k =>
      show Tallied (w.build k).1
      rcases build_cases w k with ⟨-, h⟩ | ⟨h, -, h2⟩
      · rw [h]; exact hw
      · rw [h]; exact hw.snoc h2
    | submit p t => exact hw.submit p t
    | place p k =>
      show Tallied (w.place p k).1
      rcases place_cases w p k with ⟨-, h⟩ | ⟨h, -, -, h2⟩
      · rw [h]; exact hw
      · rw [h]; exact Tallied.submit (hw.snoc h2) _ _
    | request p t i => exact hw.quiet (request_quiet w p t i).1

end
end Estrade
