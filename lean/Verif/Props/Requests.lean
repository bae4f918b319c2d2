import Verif.Props.Threads
import Verif.Props.Portfolio

/-!
# C76: every opening and every close is requested once, from the right provider, in order
-/

set_option linter.style.haveILetI false
set_option linter.unusedSectionVars false
set_option autoImplicit false

namespace Estrade

/-- Spec: the requests a provider has received, oldest first. -/
def Spec.requests (w : World) (p : ℕ) : List Target :=
  match w.providers[p]? with
  | none => []
  | some pr => pr.threads.map Thread.target

/-- Spec: the provider an epic trades with. -/
def Spec.broker (w : World) (e : ℕ) : Option ℕ := (w.epics[e]?).map Epic.provider

/-- Spec: request `a` may precede request `b`: openings in the order of the trades, the opening of a trade before its closes,
the closes of a trade in order. -/
def Spec.Precedes : Target → Target → Prop
  | .opening i, .opening j => i < j
  | .closing i k, .closing j m => i = j → k < m
  | .closing i _, .opening j => i ≠ j
  | .opening _, .closing _ _ => True

section
variable [Arith]

theorem requests_same {w w' : World} (h : w'.providers = w.providers) (p : ℕ) : Spec.requests w' p = Spec.requests w p := by
  unfold Spec.requests; rw [h]

theorem requests_modify {w w' : World} {p0 : ℕ} {f : Provider → Provider} (h : w'.providers = w.providers.modify p0 f)
    {l : List Target} (hf : ∀ pr, (f pr).threads.map Thread.target = pr.threads.map Thread.target ++ l)
    (hp : p0 < w.providers.length) (p : ℕ) :
    Spec.requests w' p = Spec.requests w p ++ if p = p0 then l else [] := by
  unfold Spec.requests
  rw [h, List.getElem?_modify]
  by_cases hpp : p0 = p
  · subst hpp
    rw [List.getElem?_eq_getElem hp]
    simp [hf]
  · rcases w.providers[p]? with _ | pr
    · simp [Ne.symm hpp]
    · simp [hpp, Ne.symm hpp]

theorem closeOn_requests {w w' : World} {p i : ℕ} {q : Option ℤ} {t : Trade} (hp : p < w.providers.length)
    (ht : w.trades[i]? = some t) (h : w.closeOn p i q = .ok w') (p' : ℕ) :
    Spec.requests w' p' = Spec.requests w p' ++ if p' = p then [.closing i t.closes.length] else [] := by
  obtain ⟨t', ep, ht', -, rfl⟩ := closeOn_eq h
  rw [ht] at ht'; injection ht' with ht'; subst ht'
  refine requests_modify (w := w) (f := fun pr => pr.spawn (.closing i t.closes.length)) rfl ?_ hp p'
  intro pr
  simp [Provider.spawn]

theorem register_requests (w : World) (p i : ℕ) (s : Option ℕ) (hp : p < w.providers.length) (p' : ℕ) :
    Spec.requests (w.register p i s) p' = Spec.requests w p' ++ if p' = p then [.opening i] else [] := by
  obtain ⟨-, -, h3, -, -⟩ := register_eq w p i s
  exact requests_modify h3 (by intro pr; simp) hp p'

theorem runThread_requests (w : World) (p i : ℕ) (st : Option Status) (p' : ℕ) :
    Spec.requests (w.runThread p i st).1 p' = Spec.requests w p' := by
  have key : ∀ w' : World, w'.providers = w.providers.modify p (fun pr =>
      { pr with threads := pr.threads.modify i (fun th => { th with alive := false }) }) →
      Spec.requests w' p' = Spec.requests w p' := by
    intro w' h
    unfold Spec.requests
    rw [h, List.getElem?_modify]
    rcases w.providers[p']? with _ | pr
    · rfl
    · by_cases hpp : p = p'
      · simp only [hpp, if_true, Option.map_eq_map, Option.map_some]
        exact map_modify_eq _ _ _ _ (fun _ => rfl)
      · simp [hpp]
  have hset : ∀ (w1 : World) tg st, (w1.setStatus tg st).providers = w1.providers := fun w1 tg st => by cases tg <;> rfl
  unfold World.runThread
  rcases hpr : w.providers[p]? with _ | pr
  · rfl
  · dsimp only
    rcases hth : pr.threads[i]? with _ | th
    · rfl
    · dsimp only
      split_ifs
      · rcases pr.kind with _ | _
        · exact key _ (hset _ _ _)
        · rcases st with _ | st
          · exact key _ rfl
          · exact key _ (hset _ _ _)
      · rfl

/-! ## Invariants -/

/-- A primitive step adds at most one request, about a new object. -/
theorem Prim.requests {V : Prop} {w w' : World} (hok : EpicsOk w) (h : Prim V w w') :
    (∀ p, Spec.requests w' p = Spec.requests w p) ∨
    ∃ p0 tg, p0 < w.providers.length ∧ (∀ p, Spec.requests w' p = Spec.requests w p ++ if p = p0 then [tg] else []) ∧
      Spec.statusOf w tg = none ∧ Spec.statusOf w' tg ≠ none ∧
      ((∃ i, tg = .opening i ∧ ∃ pr, w'.providers[p0]? = some pr ∧ i ∈ pr.trades) ∨ ∃ i k, tg = .closing i k) := by
  cases h with
  | alloc t p hf hq _ => exact .inl fun p => rfl
  | opened t p hf _ =>
    refine .inr ⟨p, .opening w.trades.length, hf.prov, ?_, by simp [Spec.statusOf], ?_, .inl ⟨_, rfl, ?_⟩⟩
    · exact register_requests ({ w with trades := w.trades ++ [t] } : World) p _ _ hf.prov
    · simp only [Spec.statusOf, (register_epics _ _ _ _).2.2]; simp
    · obtain ⟨-, -, h3, -, -⟩ := register_eq ({ w with trades := w.trades ++ [t] } : World) p w.trades.length t.strategy
      refine ⟨_, by rw [h3, List.getElem?_modify]; simp only [List.getElem?_eq_getElem hf.prov]; simp; rfl, by simp⟩
  | closed p i q _ he h _ =>
    obtain ⟨t, ep, ht, -, -⟩ := closeOn_eq h
    obtain ⟨ep', h1, h2⟩ := he
    have hp : p < w.providers.length := h2 ▸ hok ep' h1
    refine .inr ⟨p, .closing i t.closes.length, hp, closeOn_requests hp ht h, by simp [Spec.statusOf, ht], ?_,
      .inr ⟨_, _, rfl⟩⟩
    obtain ⟨t', ep, ht', -, rfl⟩ := closeOn_eq h
    rw [ht] at ht'; injection ht' with ht'; subst ht'
    simp only [Spec.statusOf]
    show ((w.trades.set i _)[i]?).bind _ ≠ none
    rw [List.getElem?_set, if_pos rfl, if_pos (getElem?_lt ht)]
    simp only [Option.bind_some, Trade.closeFromTick, Trade.close]
    rw [(updateFromTick_status t ep.lastTick).2]; simp
  | update i v => exact .inl fun p => rfl
  | close i v dt q _ => exact .inl fun p => rfl
  | quote i k => exact .inl fun p => rfl
  | strat s f hf => exact .inl fun p => rfl
  | thread p i st => exact .inl (runThread_requests w p i st)

/-- Requests are about existing objects, in order, and openings are of trades of the provider. -/
structure ReqInv (w : World) : Prop where
  ok : EpicsOk w
  valid : ∀ p, ∀ tg ∈ Spec.requests w p, Spec.statusOf w tg ≠ none
  order : ∀ p, (Spec.requests w p).Pairwise Spec.Precedes
  listed : ∀ p i, Target.opening i ∈ Spec.requests w p → ∃ pr, w.providers[p]? = some pr ∧ i ∈ pr.trades

theorem precedes_new {w : World} {a b : Target} (ha : Spec.statusOf w a ≠ none) (hb : Spec.statusOf w b = none) :
    Spec.Precedes a b := by
  cases a with
  | opening i =>
    cases b with
    | opening j =>
      simp only [Spec.statusOf, ne_eq, Option.map_eq_none_iff, List.getElem?_eq_none_iff] at ha hb
      show i < j
      omega
    | closing j m => trivial
  | closing i k =>
    rw [statusOf_closing] at ha
    obtain ⟨t, h1, h2⟩ := ha
    cases b with
    | opening j =>
      rintro rfl
      simp [Spec.statusOf, h1] at hb
    | closing j m =>
      rintro rfl
      by_contra hlt
      have : Spec.statusOf w (.closing i m) ≠ none := (statusOf_closing w i m).mpr ⟨t, h1, by omega⟩
      exact this hb

theorem WPrim.status_ne {V : Prop} {w w' : World} (h : WPrim V w w') {tg : Target} (ht : Spec.statusOf w tg ≠ none) :
    Spec.statusOf w' tg ≠ none := by
  cases h with
  | prim h =>
    cases h.tstep with
    | same hp hs => exact hs.ne ht
    | spawn p0 tg0 extra hx hp h1 h2 hs => exact hs.ne ht
    | ran p0 i0 pr0 th0 hpr0 hth0 ha0 hp hc hsome hs =>
      by_cases htg : tg = th0.target
      · subst htg; exact hsome ht
      · rcases hx : Spec.statusOf w tg with _ | st
        · exact absurd hx ht
        · rw [hs tg st htg hx]; simp
  | log ev => cases tg <;> exact ht
  | epics es h => cases tg <;> exact ht

theorem WPrim.reqInv {V : Prop} {w w' : World} (hi : ReqInv w) (h : WPrim V w w') : ReqInv w' := by
  have hok : EpicsOk w' := WSteps.epicsOk (V := V) (.single h) hi.ok
  have hst := @WPrim.status_ne _ V w w' h
  have hgrow := h.grows.prov
  have hreq : (∀ p, Spec.requests w' p = Spec.requests w p) ∨
      ∃ p0 tg, p0 < w.providers.length ∧ (∀ p, Spec.requests w' p = Spec.requests w p ++ if p = p0 then [tg] else []) ∧
      Spec.statusOf w tg = none ∧ Spec.statusOf w' tg ≠ none ∧
      ((∃ i, tg = .opening i ∧ ∃ pr, w'.providers[p0]? = some pr ∧ i ∈ pr.trades) ∨ ∃ i k, tg = .closing i k) := by
    cases h with
    | prim h =>
      exact h.requests hi.ok
    | log ev => exact .inl fun p => rfl
    | epics es h => exact .inl fun p => rfl
  rcases hreq with h1 | ⟨p0, tg, hp0, h1, h2, h3, h4⟩
  · refine ⟨hok, ?_, ?_, ?_⟩
    · intro p tg htg; rw [h1] at htg; exact hst (hi.valid p tg htg)
    · intro p; rw [h1]; exact hi.order p
    · intro p i hm
      rw [h1] at hm
      obtain ⟨pr, g1, g2⟩ := hi.listed p i hm
      obtain ⟨pr', g3, g4⟩ := hgrow p pr g1
      exact ⟨pr', g3, g4.subset g2⟩
  · refine ⟨hok, ?_, ?_, ?_⟩
    · intro p tg' htg
      rw [h1, List.mem_append] at htg
      rcases htg with htg | htg
      · exact hst (hi.valid p tg' htg)
      · split_ifs at htg
        · rw [List.mem_singleton] at htg; subst htg; exact h3
        · cases htg
    · intro p
      rw [h1, List.pairwise_append]
      refine ⟨hi.order p, ?_, ?_⟩
      · split_ifs <;> simp
      · intro a ha b hb
        split_ifs at hb
        · rw [List.mem_singleton] at hb; subst hb
          exact precedes_new (hi.valid p a ha) h2
        · cases hb
    · intro p i hm
      rw [h1, List.mem_append] at hm
      rcases hm with hm | hm
      · obtain ⟨pr, g1, g2⟩ := hi.listed p i hm
        obtain ⟨pr', g3, g4⟩ := hgrow p pr g1
        exact ⟨pr', g3, g4.subset g2⟩
      · split_ifs at hm with hpp
        · rw [List.mem_singleton] at hm
          subst hpp
          rcases h4 with ⟨j, h5, h6⟩ | ⟨j, k, h5⟩
          · rw [h5] at hm; cases hm; exact h6
          · rw [h5] at hm; cases hm
        · cases hm

theorem Init.requests {w : World} (h : w.Init) (p : ℕ) : Spec.requests w p = [] := by
  unfold Spec.requests
  rcases hp : w.providers[p]? with _ | pr
  · rfl
  · obtain ⟨k, rfl⟩ := h.providers pr (List.mem_of_getElem? hp)
    rfl

theorem Reachable.reqInv {env : Env} {w : World} (h : Reachable env w) : ReqInv w := by
  obtain ⟨w0, h0, hs⟩ := h.steps
  refine WSteps.inv (V := False) (fun _ _ hi hp => hp.reqInv hi) hs ⟨Init.epicsOk h0, ?_, ?_, ?_⟩
  · intro p tg htg; rw [Init.requests h0] at htg; cases htg
  · intro p; rw [Init.requests h0]; exact .nil
  · intro p i htg; rw [Init.requests h0] at htg; cases htg

theorem mem_requests {w : World} {p : ℕ} {tg : Target} : tg ∈ Spec.requests w p ↔
    ∃ pr, w.providers[p]? = some pr ∧ ∃ th ∈ pr.threads, th.target = tg := by
  unfold Spec.requests
  rcases w.providers[p]? with _ | pr
  · simp
  · simp

/-! ## The theorems -/

/-- C76, once: a provider receives no request twice, and no two providers receive the same request. -/
theorem C76_once {env : Env} {w : World} (hw : Reachable env w) :
    (∀ p, (Spec.requests w p).Nodup) ∧
    ∀ p p' tg, tg ∈ Spec.requests w p → tg ∈ Spec.requests w p' → p = p' := by
  have hi := hw.threadInv
  constructor
  · intro p
    unfold Spec.requests
    rcases hp : w.providers[p]? with _ | pr
    · exact List.nodup_nil
    · rw [List.nodup_iff_getElem?_ne_getElem?]
      intro i j hij hj heq
      rw [List.length_map] at hj
      simp only [List.getElem?_map, List.getElem?_eq_getElem hj, List.getElem?_eq_getElem (hij.trans hj),
        Option.map_some, Option.some.injEq] at heq
      have := (hi.uniq p i p j pr pr _ _ hp hp (List.getElem?_eq_getElem (hij.trans hj)) (List.getElem?_eq_getElem hj)
        heq).2
      omega
  · intro p p' tg h1 h2
    obtain ⟨pr, g1, th, g2, g3⟩ := mem_requests.mp h1
    obtain ⟨pr', k1, th', k2, k3⟩ := mem_requests.mp h2
    obtain ⟨i, hi1⟩ := List.getElem?_of_mem g2
    obtain ⟨j, hj1⟩ := List.getElem?_of_mem k2
    exact (hi.uniq p i p' j pr pr' th th' g1 k1 hi1 hj1 (g3.trans k3.symm)).1

/-- C76, order: openings are requested in the order in which the trades were made, the opening of a trade before its
closes, the closes of a trade in order. -/
theorem C76_order {env : Env} {w : World} (hw : Reachable env w) (p : ℕ) :
    (Spec.requests w p).Pairwise Spec.Precedes := hw.reqInv.order p

/-- C76, openings: a provider is asked to open exactly its trades; a trade of positive size is requested from the
provider of its epic and from no other. -/
theorem C76_openings {env : Env} {w : World} (hw : Reachable env w) :
    (∀ (p : ℕ) pr, w.providers[p]? = some pr → ∀ i, Target.opening i ∈ Spec.requests w p ↔ i ∈ pr.trades) ∧
    ∀ (i : ℕ) t, w.trades[i]? = some t → 0 < t.openQty →
      ∀ p, Target.opening i ∈ Spec.requests w p ↔ Spec.broker w t.epic = some p := by
  have h1 : ∀ (p : ℕ) pr, w.providers[p]? = some pr → ∀ i, Target.opening i ∈ Spec.requests w p ↔ i ∈ pr.trades := by
    intro p pr hp i
    constructor
    · intro h
      obtain ⟨pr', g1, g2⟩ := hw.reqInv.listed p i h
      rw [hp] at g1; injection g1 with g1; subst g1; exact g2
    · intro h
      obtain ⟨th, g1, g2⟩ := hw.threadInv.listed p pr hp i h
      exact mem_requests.mpr ⟨pr, hp, th, g1, g2⟩
  refine ⟨h1, fun i t ht hq p => ?_⟩
  have hr := hw.regInv
  constructor
  · intro h
    obtain ⟨pr, g1, g2⟩ := hw.reqInv.listed p i h
    exact hr.provOf i t p pr ht g1 g2
  · intro h
    obtain ⟨p0, pr0, g1, g2⟩ := hr.listed i t ht hq
    have := hr.provOf i t p0 pr0 ht g1 g2
    have hpp : p0 = p := by
      have h' : some p0 = some p := this.symm.trans h
      injection h'
    subst hpp
    exact (h1 p0 pr0 g1 i).mpr g2

/-- C76, closes: only closes that exist are requested, and in a program that closes through the API objects every one is. -/
theorem C76_closes {env : Env} {w0 : World} (h0 : w0.Init) (l : List Cmd) :
    (∀ p i k, Target.closing i k ∈ Spec.requests (w0.runCmds env l) p →
      ∃ t, (w0.runCmds env l).trades[i]? = some t ∧ k < t.closes.length) ∧
    (Spec.NoDirectClose env l → ∀ (i : ℕ) t, (w0.runCmds env l).trades[i]? = some t → ∀ k, k < t.closes.length →
      ∃ p, Target.closing i k ∈ Spec.requests (w0.runCmds env l) p) := by
  have hr : Reachable env (w0.runCmds env l) := ⟨w0, h0, l, rfl⟩
  constructor
  · intro p i k h
    exact (statusOf_closing _ _ _).mp (hr.reqInv.valid p _ h)
  · intro hd i t ht k hk
    obtain ⟨p, pr, h1, th, h2, h3⟩ := (noDirectClose_covered h0 l hd).1 i k ((statusOf_closing _ i k).mpr ⟨t, ht, hk⟩)
    exact ⟨p, mem_requests.mpr ⟨pr, h1, th, h2, h3⟩⟩

/-- C76, kept: requests are never withdrawn or reordered. -/
theorem C76_kept {env : Env} {w : World} (hw : Reachable env w) (l : List Cmd) (p : ℕ) :
    Spec.requests w p <+: Spec.requests (w.runCmds env l) p := by
  refine (WSteps.inv (V := False) (I := fun u => EpicsOk u ∧ Spec.requests w p <+: Spec.requests u p) ?_
    (runCmds_steps (env := env) (fun v => v.elim) l w hw.epicsOk (fun v => v.elim))
    ⟨hw.epicsOk, List.prefix_refl _⟩).2
  intro u u' ⟨hu, hp⟩ h
  refine ⟨WSteps.epicsOk (V := False) (.single h) hu, ?_⟩
  cases h with
  | prim h =>
    rcases h.requests hu with h1 | ⟨p0, tg, -, h2, -⟩
    · rw [h1]; exact hp
    · rw [h2]; exact hp.trans (List.prefix_append _ _)
  | log ev => exact hp
  | epics es h => exact hp

/-- C76, `epic.close_trade`: one request, for the new close, to the provider of the epic it is called on. -/
theorem C76_close {env : Env} {w : World} (hw : Reachable env w) {e i : ℕ} {q : Option ℤ} {ep : Epic} {t : Trade}
    (hep : w.epics[e]? = some ep) (ht : w.trades[i]? = some t) (p : ℕ) :
    (w.step (.closeTrade e i q)).2 = none ∧
    Spec.requests (w.step (.closeTrade e i q)).1 p =
      Spec.requests w p ++ if p = ep.provider then [.closing i t.closes.length] else [] := by
  obtain ⟨et, het⟩ := hw.regInv.epicOk i t ht
  have hp := hw.epicsOk ep (List.mem_of_getElem? hep)
  have : ∃ w', w.closeOn ep.provider i q = .ok w' := by
    unfold World.closeOn; rw [ht]; simp only [het]; exact ⟨_, rfl⟩
  obtain ⟨w', hw'⟩ := this
  have hstep : w.step (.closeTrade e i q) = (w', none) := by
    simp only [World.step, World.closeTrade, hep, hw', orKeep]
  rw [hstep]
  exact ⟨rfl, closeOn_requests hp ht hw' p⟩

/-- Spec: the closes `close_opened_trades` asks provider `p` for: the next close of each open trade of the list whose
epic trades with `p`, in the order of the list. -/
def Spec.closingRequests (w : World) (l : List ℕ) (p : ℕ) : List Target :=
  l.filterMap (fun i => (w.trades[i]?).bind (fun t =>
    if t.openedQty ≠ 0 ∧ Spec.broker w t.epic = some p then some (.closing i t.closes.length) else none))

theorem closed_iff (t : Trade) : t.closed = true ↔ t.openedQty = 0 := by
  unfold Trade.closed; simp

theorem closeOpenedLoop_requests (q : Option ℤ) (l : List ℕ) : ∀ w w' : World, EpicsOk w → l.Nodup →
    closeOpenedLoop q w l = .ok w' → ∀ p, Spec.requests w' p = Spec.requests w p ++ Spec.closingRequests w l p := by
  induction l with
  | nil =>
    intro w w' _ _ h p
    unfold closeOpenedLoop at h
    injection h with h; subst h; simp [Spec.closingRequests]
  | cons i rest ih =>
    intro w w' hok hnd h p
    rw [List.nodup_cons] at hnd
    unfold closeOpenedLoop at h
    rcases ht : w.trades[i]? with _ | t
    · rw [ht] at h; cases h
    · rw [ht] at h
      simp only at h
      by_cases hc : t.closed = true
      · rw [if_pos hc] at h
        rw [ih w w' hok hnd.2 h p]
        congr 1
        unfold Spec.closingRequests
        rw [List.filterMap_cons_none]
        rw [ht, Option.bind_some, if_neg]
        rintro ⟨h1, -⟩
        exact h1 ((closed_iff t).mp hc)
      · rw [if_neg hc] at h
        rcases h1 : w.closeTrade t.epic i q with err | w1
        · rw [h1] at h; cases h
        · rw [h1] at h
          have h : closeOpenedLoop q w1 rest = .ok w' := h
          unfold World.closeTrade at h1
          rcases hep : w.epics[t.epic]? with _ | ep
          · rw [hep] at h1; cases h1
          · rw [hep] at h1
            simp only at h1
            have hp := hok ep (List.mem_of_getElem? hep)
            have hreq := closeOn_requests hp ht h1 p
            obtain ⟨t', et, ht', het, hw1⟩ := closeOn_eq h1
            have he1 : w1.epics = w.epics := by rw [hw1]; rfl
            have htr : w1.trades = w.trades.set i (t'.closeFromTick et.lastTick q) := by rw [hw1]; rfl
            have hok1 : EpicsOk w1 := by
              intro ep' hm
              rw [he1] at hm
              have := hok ep' hm
              rw [hw1]
              show _ < (w.providers.modify _ _).length
              rw [List.length_modify]; exact this
            rw [ih w1 w' hok1 hnd.2 h p, hreq, List.append_assoc]
            congr 1
            have hrest : Spec.closingRequests w1 rest p = Spec.closingRequests w rest p := by
              unfold Spec.closingRequests
              apply List.filterMap_congr
              intro j hj
              have hne : i ≠ j := fun hij => hnd.1 (hij ▸ hj)
              unfold Spec.broker
              rw [htr, he1, List.getElem?_set, if_neg hne]
            rw [hrest]
            unfold Spec.closingRequests
            have hco : t.openedQty ≠ 0 := fun h0 => hc ((closed_iff t).mpr h0)
            by_cases hpp : p = ep.provider
            · rw [if_pos hpp, List.filterMap_cons_some (b := .closing i t.closes.length)]
              · rfl
              · rw [ht, Option.bind_some, if_pos]
                exact ⟨hco, by unfold Spec.broker; rw [hep, hpp]; rfl⟩
            · rw [if_neg hpp, List.filterMap_cons_none]
              · rfl
              · rw [ht, Option.bind_some, if_neg]
                rintro ⟨-, h2⟩
                unfold Spec.broker at h2
                rw [hep] at h2
                injection h2 with h2
                exact hpp h2.symm

/-- C76, `close_opened_trades`: each open trade of the strategy is closed by one request to the provider of its own epic,
latest trade first. -/
theorem C76_close_opened {env : Env} {w : World} (hw : Reachable env w) {s : ℕ} {st : Strategy} {q : Option ℤ}
    (hs : w.strategies[s]? = some st) (hn : (w.step (.closeOpened s q)).2 = none) (p : ℕ) :
    Spec.requests (w.step (.closeOpened s q)).1 p = Spec.requests w p ++ Spec.closingRequests w st.trades.reverse p := by
  have hstep : w.step (.closeOpened s q) = orKeep w (closeOpenedLoop q w st.trades.reverse) := by
    simp only [World.step, hs]
  rw [hstep] at hn ⊢
  rcases h : closeOpenedLoop q w st.trades.reverse with err | w'
  · rw [h] at hn; cases hn
  · have hnd : st.trades.reverse.Nodup := by
      rw [List.nodup_reverse]
      exact (hw.regInv.stratInc s st hs).imp (fun h => h.ne)
    exact closeOpenedLoop_requests q _ w w' hw.epicsOk hnd h p

theorem netLoop_requests {p : ℕ} (l : List ℕ) : ∀ (w w' : World) (new new' : Trade), p < w.providers.length →
    netLoop p w new l = .ok (w', new') →
    w'.trades.length = w.trades.length ∧ w'.providers.length = w.providers.length ∧
    ∃ ls, (∀ p', Spec.requests w' p' = Spec.requests w p' ++ if p' = p then ls else []) ∧
      ∀ tg ∈ ls, ∃ i k, i ∈ l ∧ tg = .closing i k := by
  induction l with
  | nil =>
    intro w w' new new' _ h
    unfold netLoop at h
    injection h with h; injection h with h1 h2; subst h1
    exact ⟨rfl, rfl, [], by simp, by simp⟩
  | cons i rest ih =>
    intro w w' new new' hp h
    unfold netLoop at h
    have lift : (w'.trades.length = w.trades.length ∧ w'.providers.length = w.providers.length ∧
        ∃ ls, (∀ p', Spec.requests w' p' = Spec.requests w p' ++ if p' = p then ls else []) ∧
          ∀ tg ∈ ls, ∃ i k, i ∈ rest ∧ tg = .closing i k) → (w'.trades.length = w.trades.length ∧
        w'.providers.length = w.providers.length ∧
        ∃ ls, (∀ p', Spec.requests w' p' = Spec.requests w p' ++ if p' = p then ls else []) ∧
          ∀ tg ∈ ls, ∃ j k, j ∈ i :: rest ∧ tg = .closing j k) := by
      rintro ⟨a, b, ls, c, d⟩
      refine ⟨a, b, ls, c, fun tg htg => ?_⟩
      obtain ⟨j, k, h1, h2⟩ := d tg htg
      exact ⟨j, k, List.mem_cons_of_mem _ h1, h2⟩
    rcases ht : w.trades[i]? with _ | t
    · rw [ht] at h; cases h
    · rw [ht] at h
      simp only at h
      split_ifs at h
      · exact lift (ih w w' new new' hp h)
      · rcases h1 : w.closeOn p i (some (min t.openedQty new.openQty)) with err | w1
        · rw [h1] at h; cases h
        · rw [h1] at h
          have h : netLoop p w1 { new with openQty := new.openQty - min t.openedQty new.openQty } rest = .ok (w', new') := h
          have hreq := closeOn_requests hp ht h1
          obtain ⟨t', et, ht', het, hw1⟩ := closeOn_eq h1
          have e1 : w1.trades.length = w.trades.length := by
            rw [hw1]; show (w.trades.set _ _).length = _; simp
          have e2 : w1.providers.length = w.providers.length := by
            rw [hw1]; show (w.providers.modify _ _).length = _; simp
          obtain ⟨a, b, ls, c, d⟩ := ih w1 w' _ new' (e2 ▸ hp) h
          refine ⟨a.trans e1, b.trans e2, .closing i t.closes.length :: ls, ?_, ?_⟩
          · intro p'
            rw [c p', hreq p', List.append_assoc]
            split_ifs <;> simp
          · intro tg htg
            rcases List.mem_cons.mp htg with rfl | htg
            · exact ⟨i, _, by simp, rfl⟩
            · obtain ⟨j, k, h1, h2⟩ := d tg htg
              exact ⟨j, k, List.mem_cons_of_mem _ h1, h2⟩
      · exact lift (ih w w' new new' hp h)

/-- C76, `open_trade`: all requests go to the provider of the epic: closes of trades of that provider, then, if the trade
is registered, its opening. -/
theorem C76_open {env : Env} {w : World} (hw : Reachable env w) {e : ℕ} {s : Option ℕ} {d : Option Dir} {q : ℤ} {ep : Epic}
    (hep : w.epics[e]? = some ep) :
    ∃ cl last, (∀ p, Spec.requests (w.step (.openTrade e s d q)).1 p =
        Spec.requests w p ++ if p = ep.provider then cl ++ last else []) ∧
      (∀ tg ∈ cl, ∃ (i k : ℕ) (t : Trade), tg = .closing i k ∧ w.trades[i]? = some t ∧ t.openedQty ≠ 0 ∧
        Spec.broker w t.epic = some ep.provider) ∧
      (last = [] ∨ last = [.opening w.trades.length]) ∧
      (∀ pr, w.providers[ep.provider]? = some pr → pr.kind = .custom → cl = [] ∧
        ((w.step (.openTrade e s d q)).2 = none → last = [.opening w.trades.length])) := by
  have hp := hw.epicsOk ep (List.mem_of_getElem? hep)
  have keep : ∀ x, w.step (.openTrade e s d q) = (w, some x) → ∃ cl last,
      (∀ p, Spec.requests (w.step (.openTrade e s d q)).1 p =
        Spec.requests w p ++ if p = ep.provider then cl ++ last else []) ∧
      (∀ tg ∈ cl, ∃ (i k : ℕ) (t : Trade), tg = .closing i k ∧ w.trades[i]? = some t ∧ t.openedQty ≠ 0 ∧
        Spec.broker w t.epic = some ep.provider) ∧
      (last = [] ∨ last = [.opening w.trades.length]) ∧
      (∀ pr, w.providers[ep.provider]? = some pr → pr.kind = .custom → cl = [] ∧
        ((w.step (.openTrade e s d q)).2 = none → last = [.opening w.trades.length])) := by
    intro x hx
    rw [hx]
    exact ⟨[], [], by simp, by simp, .inl rfl, fun _ _ _ => ⟨rfl, fun h => by cases h⟩⟩
  by_cases hs : s.all (fun k => decide (k < w.strategies.length)) = true
  · rcases ht : Trade.openFromTick ep.lastTick e d q s with err | t
    · refine keep err ?_
      simp only [World.step, hep, hs, if_true, ht]; rfl
    · obtain ⟨pr, hpr⟩ : ∃ pr, w.providers[ep.provider]? = some pr := ⟨_, List.getElem?_eq_getElem hp⟩
      · have hstep : w.step (.openTrade e s d q) = orKeep w (w.providerOpen ep.provider t) := by
          simp only [World.step, hep, hs, if_true, ht]; rfl
        rcases hk : pr.kind with _ | _
        · rcases hl : netLoop ep.provider w t (w.openedTrades pr) with err | ⟨w1, t1⟩
          · refine keep err ?_
            rw [hstep]
            unfold World.providerOpen
            rw [hpr]; simp only [hk, hl]; rfl
          · obtain ⟨e1, e2, ls, c, dd⟩ := netLoop_requests _ _ _ _ _ hp hl
            have hcl : ∀ tg ∈ ls, ∃ (i k : ℕ) (t : Trade), tg = .closing i k ∧ w.trades[i]? = some t ∧ t.openedQty ≠ 0 ∧
                Spec.broker w t.epic = some ep.provider := by
              intro tg htg
              obtain ⟨i, k, h1, h2⟩ := dd tg htg
              obtain ⟨h3, t', h4, h5⟩ := (mem_openedTrades w pr i).mp h1
              exact ⟨i, k, t', h2, h4, h5, hw.regInv.provOf i t' _ pr h4 hpr h3⟩
            by_cases hq : t1.openQty ≤ 0
            · have : w.step (.openTrade e s d q) = ({ w1 with trades := w1.trades ++ [t1] }, none) := by
                rw [hstep]; unfold World.providerOpen; rw [hpr]; simp only [hk, hl]
                show orKeep w (if t1.openQty ≤ 0 then _ else _) = _
                rw [if_pos hq]; rfl
              rw [this]
              refine ⟨ls, [], fun p => ?_, hcl, .inl rfl, fun pr' h1 h2 => ?_⟩
              · rw [List.append_nil]; exact c p
              · rw [hpr] at h1; injection h1 with h1; subst h1; rw [hk] at h2; cases h2
            · have : w.step (.openTrade e s d q) =
                  (({ w1 with trades := w1.trades ++ [t1] } : World).register ep.provider w1.trades.length t.strategy,
                    none) := by
                rw [hstep]; unfold World.providerOpen; rw [hpr]; simp only [hk, hl]
                show orKeep w (if t1.openQty ≤ 0 then _ else _) = _
                rw [if_neg hq]; rfl
              rw [this]
              refine ⟨ls, [.opening w.trades.length], fun p => ?_, hcl, .inr rfl, fun pr' h1 h2 => ?_⟩
              · rw [register_requests ({ w1 with trades := w1.trades ++ [t1] } : World) ep.provider _ _ (e2 ▸ hp) p, e1,
                  show Spec.requests ({ w1 with trades := w1.trades ++ [t1] } : World) p = Spec.requests w1 p from rfl, c p,
                  List.append_assoc]
                split_ifs <;> simp
              · rw [hpr] at h1; injection h1 with h1; subst h1; rw [hk] at h2; cases h2
        · have : w.step (.openTrade e s d q) =
              (({ w with trades := w.trades ++ [t] } : World).register ep.provider w.trades.length t.strategy, none) := by
            rw [hstep]; unfold World.providerOpen; rw [hpr]; simp only [hk]; rfl
          rw [this]
          refine ⟨[], [.opening w.trades.length], fun p => ?_, by simp, .inr rfl, fun pr' h1 h2 => ⟨rfl, fun _ => rfl⟩⟩
          exact register_requests ({ w with trades := w.trades ++ [t] } : World) ep.provider _ _ hp p
  · refine keep .attr ?_
    simp only [World.step, hep]
    rw [if_neg hs]

/-- C76, nothing else: an operation that raises and every operation other than opening and closing asks for nothing. -/
theorem C76_silent (w : World) (o : Op) :
    (match o with
      | .openTrade _ _ _ _ | .closeTrade _ _ _ | .closeOpened _ _ => (w.step o).2 ≠ none
      | _ => True) →
    ∀ p, Spec.requests (w.step o).1 p = Spec.requests w p := by
  have hk : ∀ x : Except PyErr World, (orKeep w x).2 ≠ none → (orKeep w x).1 = w := by
    intro x h
    cases x with
    | ok w' => exact absurd rfl h
    | error e => rfl
  cases o with
  | openTrade e s d q =>
    intro h p
    simp only [World.step] at h ⊢
    split at h
    · rfl
    · split_ifs at h ⊢
      · rw [hk _ h]
      · rfl
  | closeTrade e t q => intro h p; simp only [World.step] at h ⊢; rw [hk _ h]
  | closeOpened s q =>
    intro h p
    simp only [World.step] at h ⊢
    split at h
    · rfl
    · rw [hk _ h]
  | update t v => intro _ p; rfl
  | close t v dt q => intro _ p; rfl
  | pause s d => intro _ p; rfl
  | stop s b => intro _ p; rfl
  | thread p0 i st => intro _ p; exact runThread_requests w p0 i st p

end

/-! ## Concrete cases -/

namespace Demo

/-- Two epics on two providers: backtests and custom. -/
def twoBrokers : World :=
  ⟨[Epic.new "E0" Zone.utc (8 * hourUs) (16 * hourUs) [] [] 0, Epic.new "E1" Zone.utc 0 (23 * hourUs) [] [] 1],
   [Strategy.new "S0"], [Provider.new .backtests, Provider.new .custom], [], []⟩

theorem twoBrokers_init : twoBrokers.Init := by
  refine ⟨?_, ?_, ?_, rfl, rfl⟩
  · intro e he
    simp only [twoBrokers, List.mem_cons, List.not_mem_nil, or_false] at he
    rcases he with rfl | rfl
    · exact ⟨_, _, _, _, _, _, 0, by decide, rfl⟩
    · exact ⟨_, _, _, _, _, _, 1, by decide, rfl⟩
  · intro s hs
    simp only [twoBrokers, List.mem_cons, List.not_mem_nil, or_false] at hs
    subst hs; exact ⟨_, rfl⟩
  · intro p hp
    simp only [twoBrokers, List.mem_cons, List.not_mem_nil, or_false] at hp
    rcases hp with rfl | rfl <;> exact ⟨_, rfl⟩

/-- A buy on each epic, a sell netting the first in part and one netting it entirely, closing all of the strategy. -/
def orders : List Cmd :=
  [.tick 0 (tk 480 10 12), .tick 1 (tk 480 20 22),
   .op (.openTrade 0 (some 0) (some .buy) 5), .op (.openTrade 1 (some 0) (some .buy) 2),
   .op (.openTrade 0 (some 0) (some .sell) 2), .op (.thread 0 1 none), .op (.openTrade 0 (some 0) (some .sell) 4),
   .op (.closeOpened 0 none)]

end Demo

/-- Requests of the two providers: the buy 0, its netting closes, the rest of the second sell, its close; the buy 1 and
its close. -/
example : letI := Arith.exact
    let w := Demo.twoBrokers.runCmds Demo.quiet Demo.orders
    (Spec.requests w 0, Spec.requests w 1) =
      ([.opening 0, .closing 0 0, .closing 0 1, .opening 3, .closing 3 0], [.opening 1, .closing 1 0]) := by
  letI := Arith.exact
  decide +kernel

/-- C76, the epic that is asked decides: closing a trade through another epic asks that epic's provider, which was never
asked to open it. -/
theorem C76_wrong_broker : ∃ (A : Arith) (env : Env) (w : World) (i : ℕ) (t : Trade), @Reachable A env w ∧
    w.trades[i]? = some t ∧ ∃ p, Target.closing i 0 ∈ Spec.requests w p ∧ Spec.broker w t.epic ≠ some p ∧
      Target.opening i ∉ Spec.requests w p := by
  letI := Arith.exact
  refine ⟨Arith.exact, Demo.quiet, Demo.twoBrokers.runCmds Demo.quiet [.tick 0 (Demo.tk 480 10 12),
    .op (.openTrade 0 none (some .buy) 5), .op (.closeTrade 1 0 none)], 0, _, ⟨_, Demo.twoBrokers_init, _, rfl⟩, rfl, 1, ?_⟩
  decide +kernel

end Estrade
