import Verif.Lemmas.Registry
import Verif.Lemmas.WorldLog

/-!
# Invariant of the request threads
-/

set_option linter.unusedSectionVars false
set_option autoImplicit false

namespace Estrade

/-- Spec: status of a trade or close. -/
def Spec.statusOf (w : World) : Target → Option Status
  | .opening i => (w.trades[i]?).map Trade.status
  | .closing i k => (w.trades[i]?).bind (fun t => (t.closes[k]?).map TradeClose.status)

section
variable [Arith]

/-- Statuses stay as they are (objects may be added). -/
def StatusKept (w w' : World) : Prop := ∀ tg st, Spec.statusOf w tg = some st → Spec.statusOf w' tg = some st

/-- What a primitive step does to threads and statuses. -/
inductive TStep (w w' : World) : Prop
  | same (hp : w'.providers = w.providers) (hs : StatusKept w w')
  | spawn (p : ℕ) (tg : Target) (extra : List ℕ) (hx : extra = [] ∨ ∃ i, extra = [i] ∧ tg = .opening i)
      (hp : w'.providers = w.providers.modify p (fun pr =>
        { pr with trades := pr.trades ++ extra, threads := pr.threads ++ [⟨tg, true⟩] }))
      (h1 : Spec.statusOf w tg = none) (h2 : Spec.statusOf w' tg ≠ none) (hs : StatusKept w w')
  | ran (p i : ℕ) (pr : Provider) (th : Thread) (hpr : w.providers[p]? = some pr) (hth : pr.threads[i]? = some th)
      (ha : th.alive = true)
      (hp : w'.providers = w.providers.modify p (fun pr =>
        { pr with threads := pr.threads.modify i (fun th => { th with alive := false }) }))
      (hc : pr.kind = .backtests → Spec.statusOf w th.target ≠ none → Spec.statusOf w' th.target = some .confirmed)
      (hsome : Spec.statusOf w th.target ≠ none → Spec.statusOf w' th.target ≠ none)
      (hs : ∀ tg st, tg ≠ th.target → Spec.statusOf w tg = some st → Spec.statusOf w' tg = some st)

theorem statusKept_trades {w w' : World} (h : ∀ (i : ℕ) t, w.trades[i]? = some t → ∃ t', w'.trades[i]? = some t' ∧
    t'.status = t.status ∧ t.closes <+: t'.closes) : StatusKept w w' := by
  intro tg st hst
  cases tg with
  | opening i =>
    simp only [Spec.statusOf] at hst ⊢
    rcases ht : w.trades[i]? with _ | t
    · rw [ht] at hst; cases hst
    · obtain ⟨t', h1, h2, -⟩ := h i t ht
      rw [ht] at hst; rw [h1]
      simp only [Option.map_some] at hst ⊢
      rw [h2]; exact hst
  | closing i k =>
    simp only [Spec.statusOf] at hst ⊢
    rcases ht : w.trades[i]? with _ | t
    · rw [ht] at hst; cases hst
    · obtain ⟨t', h1, -, h2⟩ := h i t ht
      rw [ht] at hst; rw [h1]
      simp only [Option.bind_some] at hst ⊢
      rcases hk : t.closes[k]? with _ | c
      · rw [hk] at hst; cases hst
      · rw [hk] at hst
        obtain ⟨l, hl⟩ := h2
        rw [← hl, List.getElem?_append_left (getElem?_lt hk), hk]; exact hst

theorem update_status (t : Trade) (v : ℚ) : (t.update v).status = t.status ∧ (t.update v).closes = t.closes := by
  unfold Trade.update Trade.updateMinMax
  dsimp only
  split_ifs <;> exact ⟨rfl, rfl⟩

theorem updateFromTick_status (t : Trade) (k : Tick) :
    (t.updateFromTick k).status = t.status ∧ (t.updateFromTick k).closes = t.closes := update_status t _

theorem statusKept_modify (w w' : World) (i : ℕ) (f : Trade → Trade)
    (hf : ∀ t, (f t).status = t.status ∧ t.closes <+: (f t).closes) (hw : w'.trades = w.trades.modify i f) :
    StatusKept w w' := by
  apply statusKept_trades
  intro j t ht
  rw [hw, List.getElem?_modify, ht]
  by_cases hij : i = j
  · simp only [hij, if_true, Option.map_eq_map, Option.map_some]
    exact ⟨f t, rfl, hf t⟩
  · simp only [hij, if_false]
    exact ⟨t, rfl, rfl, List.prefix_refl _⟩

theorem statusKept_append (w w' : World) (l : List Trade) (hw : w'.trades = w.trades ++ l) : StatusKept w w' := by
  apply statusKept_trades
  intro j t ht
  exact ⟨t, by rw [hw, List.getElem?_append_left (getElem?_lt ht)]; exact ht, rfl, List.prefix_refl _⟩

theorem setStatus_kept (w : World) (tg : Target) (st : Status) :
    (Spec.statusOf w tg ≠ none → Spec.statusOf (w.setStatus tg st) tg = some st) ∧
    ∀ tg', tg' ≠ tg → Spec.statusOf (w.setStatus tg st) tg' = Spec.statusOf w tg' := by
  cases tg with
  | opening i =>
    constructor
    · intro h
      simp only [Spec.statusOf, World.setStatus, List.getElem?_modify] at h ⊢
      rcases ht : w.trades[i]? with _ | t
      · rw [ht] at h; exact absurd rfl h
      · simp
    · intro tg' hne
      cases tg' with
      | opening j =>
        have : i ≠ j := fun h => hne (by rw [h])
        simp [Spec.statusOf, World.setStatus, this]
      | closing j k =>
        simp only [Spec.statusOf, World.setStatus, List.getElem?_modify]
        rcases w.trades[j]? with _ | t
        · rfl
        · by_cases hij : i = j <;> simp [hij]
  | closing i k =>
    constructor
    · intro h
      simp only [Spec.statusOf, World.setStatus, List.getElem?_modify] at h ⊢
      rcases ht : w.trades[i]? with _ | t
      · rw [ht] at h; exact absurd rfl h
      · rw [ht] at h
        simp only [Option.bind_some] at h
        rcases hk : t.closes[k]? with _ | c
        · rw [hk] at h; exact absurd rfl h
        · simp [hk]
    · intro tg' hne
      cases tg' with
      | opening j =>
        simp only [Spec.statusOf, World.setStatus, List.getElem?_modify]
        rcases w.trades[j]? with _ | t
        · rfl
        · by_cases hij : i = j <;> simp [hij]
      | closing j m =>
        simp only [Spec.statusOf, World.setStatus, List.getElem?_modify]
        rcases w.trades[j]? with _ | t
        · rfl
        · by_cases hij : i = j
          · have : k ≠ m := fun h => hne (by rw [h, hij])
            simp [hij, this]
          · simp [hij]

theorem Prim.tstep {V : Prop} {w w' : World} (h : Prim V w w') : TStep w w' := by
  cases h with
  | alloc t p hf hq _ => exact .same rfl (statusKept_append _ _ _ rfl)
  | opened t p hf _ =>
    obtain ⟨h1, -, h3, -, -⟩ := register_eq ({ w with trades := w.trades ++ [t] } : World) p w.trades.length t.strategy
    refine .spawn p (.opening w.trades.length) [w.trades.length] (.inr ⟨_, rfl, rfl⟩) h3 (by simp [Spec.statusOf]) ?_
      (statusKept_append _ _ _ h1)
    simp only [Spec.statusOf]
    rw [h1]; simp
  | closed p i q _ _ h _ =>
    obtain ⟨t, ep, ht, -, rfl⟩ := closeOn_eq h
    have hu := fun t : Trade => updateFromTick_status t ep.lastTick
    refine .spawn p (.closing i t.closes.length) [] (.inl rfl) ?_ (by simp [Spec.statusOf, ht]) ?_ ?_
    · show w.providers.modify p _ = _
      congr 1
      funext pr
      simp [Provider.spawn]
    · simp only [Spec.statusOf]
      show ((w.trades.set i _)[i]?).bind _ ≠ none
      rw [List.getElem?_set, if_pos rfl, if_pos (getElem?_lt ht)]
      simp only [Option.bind_some, Trade.closeFromTick, Trade.close]
      rw [(hu t).2]; simp
    · refine statusKept_modify _ _ i (fun t => t.closeFromTick ep.lastTick q) (fun t => ?_) ?_
      · unfold Trade.closeFromTick Trade.close
        simp only
        exact ⟨(hu t).1, by rw [(hu t).2]; exact List.prefix_append _ _⟩
      · exact set_eq_modify _ _ _ (fun t => t.closeFromTick ep.lastTick q) ht
  | update i v =>
    exact .same rfl (statusKept_modify _ _ i _ (fun t => ⟨(update_status t v).1, by rw [(update_status t v).2]⟩) rfl)
  | close i v dt q _ =>
    refine .same rfl (statusKept_modify _ _ i (fun t => t.close v dt q) (fun t => ⟨rfl, ?_⟩) rfl)
    unfold Trade.close; exact List.prefix_append _ _
  | quote i k =>
    exact .same rfl (statusKept_modify _ _ i _
      (fun t => ⟨(updateFromTick_status t k).1, by rw [(updateFromTick_status t k).2]⟩) rfl)
  | strat s f hf => exact .same rfl (fun _ _ h => h)
  | thread p i st =>
    unfold World.runThread
    rcases hpr : w.providers[p]? with _ | pr
    · exact .same rfl (fun _ _ h => h)
    · dsimp only
      rcases hth : pr.threads[i]? with _ | th
      · exact .same rfl (fun _ _ h => h)
      · dsimp only
        rcases ha : th.alive with _ | _
        · exact .same rfl (fun _ _ h => h)
        · simp only [if_true]
          set w1 := w.modProvider p (fun pr =>
            { pr with threads := pr.threads.modify i (fun th => { th with alive := false }) }) with hw1
          have hs1 : ∀ tg, Spec.statusOf w1 tg = Spec.statusOf w tg := fun tg => by cases tg <;> rfl
          have hp1 : ∀ tg st, (w1.setStatus tg st).providers = w1.providers := fun tg st => by cases tg <;> rfl
          have hset : ∀ st, (Spec.statusOf w th.target ≠ none →
              Spec.statusOf (w1.setStatus th.target st) th.target = some st) ∧ ∀ tg st', tg ≠ th.target →
              Spec.statusOf w tg = some st' → Spec.statusOf (w1.setStatus th.target st) tg = some st' := by
            intro st
            obtain ⟨a, b⟩ := setStatus_kept w1 th.target st
            exact ⟨fun h => a (by rw [hs1]; exact h), fun tg st' hne h => by rw [b tg hne, hs1]; exact h⟩
          rcases hk : pr.kind with _ | _
          · refine .ran p i pr th hpr hth ha (hp1 _ _) (fun _ h => (hset _).1 h)
              (fun h => by rw [(hset _).1 h]; simp) (hset _).2
          · rcases st with _ | st
            · refine .ran p i pr th hpr hth ha rfl (fun h _ => ?_) (fun h => by rw [hs1]; exact h)
                (fun tg st _ h => by rw [hs1]; exact h)
              rw [hk] at h; cases h
            · refine .ran p i pr th hpr hth ha (hp1 _ _) (fun h _ => ?_)
                (fun h => by rw [(hset _).1 h]; simp) (hset _).2
              rw [hk] at h; cases h

/-- Invariant: one thread per object; dead threads of a backtests provider have confirmed it; every registered trade has a
thread. -/
structure ThreadInv (w : World) : Prop where
  uniq : ∀ (p i p' i' : ℕ) (pr pr' : Provider) (th th' : Thread), w.providers[p]? = some pr → w.providers[p']? = some pr' →
    pr.threads[i]? = some th → pr'.threads[i']? = some th' → th.target = th'.target → p = p' ∧ i = i'
  valid : ∀ (p : ℕ) (pr : Provider), w.providers[p]? = some pr → ∀ th ∈ pr.threads, Spec.statusOf w th.target ≠ none
  dead : ∀ (p : ℕ) (pr : Provider), w.providers[p]? = some pr → pr.kind = .backtests → ∀ th ∈ pr.threads,
    th.alive = false → Spec.statusOf w th.target = some .confirmed
  listed : ∀ (p : ℕ) (pr : Provider), w.providers[p]? = some pr → ∀ i ∈ pr.trades, ∃ th ∈ pr.threads,
    th.target = .opening i

theorem StatusKept.ne {w w' : World} (h : StatusKept w w') {tg : Target} (hn : Spec.statusOf w tg ≠ none) :
    Spec.statusOf w' tg ≠ none := by
  rcases hs : Spec.statusOf w tg with _ | st
  · exact absurd hs hn
  · rw [h tg st hs]; simp

theorem TStep.inv {w w' : World} (hi : ThreadInv w) (h : TStep w w') : ThreadInv w' := by
  cases h with
  | same hp hs =>
    refine ⟨by rw [hp]; exact hi.uniq, ?_, ?_, by rw [hp]; exact hi.listed⟩
    · intro p pr hpr th hth; rw [hp] at hpr; exact hs.ne (hi.valid p pr hpr th hth)
    · intro p pr hpr hk th hth ha; rw [hp] at hpr; exact hs _ _ (hi.dead p pr hpr hk th hth ha)
  | spawn p0 tg extra hx hp h1 h2 hs =>
    -- every provider of the new world comes from one of the old, possibly with the new thread
    have back : ∀ (p : ℕ) (pr : Provider), w'.providers[p]? = some pr → ∃ pr0, w.providers[p]? = some pr0 ∧
        pr.kind = pr0.kind ∧ ((pr = pr0) ∨ (p = p0 ∧ pr.trades = pr0.trades ++ extra ∧
          pr.threads = pr0.threads ++ [⟨tg, true⟩])) := by
      intro p pr hpr
      rw [hp, List.getElem?_modify] at hpr
      rcases h0 : w.providers[p]? with _ | pr0
      · rw [h0] at hpr; cases hpr
      · rw [h0] at hpr
        by_cases hpp : p0 = p
        · simp only [hpp, if_true, Option.map_eq_map, Option.map_some] at hpr
          injection hpr with hpr; subst hpr
          exact ⟨pr0, rfl, rfl, .inr ⟨hpp.symm, rfl, rfl⟩⟩
        · simp only [hpp, if_false, Option.map_eq_map, Option.map_some] at hpr
          injection hpr with hpr; subst hpr
          exact ⟨pr0, rfl, rfl, .inl rfl⟩
    -- a thread of the new world: an old one at the same place, or the new one
    have thr : ∀ (p i : ℕ) (pr : Provider) (th : Thread), w'.providers[p]? = some pr → pr.threads[i]? = some th →
        (∃ pr0, w.providers[p]? = some pr0 ∧ pr0.threads[i]? = some th) ∨
        (p = p0 ∧ (∃ pr0, w.providers[p]? = some pr0 ∧ i = pr0.threads.length) ∧ th = ⟨tg, true⟩) := by
      intro p i pr th hpr hth
      obtain ⟨pr0, g1, -, g2⟩ := back p pr hpr
      rcases g2 with rfl | ⟨rfl, -, g2⟩
      · exact .inl ⟨pr, g1, hth⟩
      · rw [g2, List.getElem?_append] at hth
        split_ifs at hth with hlt
        · exact .inl ⟨pr0, g1, hth⟩
        · right
          have hz : i - pr0.threads.length = 0 := by
            by_contra hz
            rw [List.getElem?_cons, if_neg hz] at hth
            simp at hth
          rw [hz] at hth
          simp only [List.getElem?_cons_zero, Option.some.injEq] at hth
          exact ⟨rfl, ⟨pr0, g1, by omega⟩, hth.symm⟩
    have old : ∀ (p i : ℕ) (pr0 : Provider) (th : Thread), w.providers[p]? = some pr0 → pr0.threads[i]? = some th →
        th.target ≠ tg := by
      intro p i pr0 th hpr hth h
      have := hi.valid p pr0 hpr th (List.mem_of_getElem? hth)
      rw [h] at this; exact this h1
    refine ⟨?_, ?_, ?_, ?_⟩
    · intro p i p' i' pr pr' th th' hpr hpr' hth hth' ht
      rcases thr p i pr th hpr hth with ⟨pr0, a1, a2⟩ | ⟨a1, ⟨pr0, a2, a3⟩, a4⟩
      · rcases thr p' i' pr' th' hpr' hth' with ⟨pr1, b1, b2⟩ | ⟨b1, ⟨pr1, b2, b3⟩, b4⟩
        · exact hi.uniq p i p' i' pr0 pr1 th th' a1 b1 a2 b2 ht
        · exact absurd (by rw [ht, b4]) (old p i pr0 th a1 a2)
      · rcases thr p' i' pr' th' hpr' hth' with ⟨pr1, b1, b2⟩ | ⟨b1, ⟨pr1, b2, b3⟩, b4⟩
        · exact absurd (by rw [← ht, a4]) (old p' i' pr1 th' b1 b2)
        · subst a1; subst b1
          rw [a2] at b2; injection b2 with b2; subst b2
          exact ⟨rfl, by omega⟩
    · intro p pr hpr th hth
      obtain ⟨i, hth⟩ := List.getElem?_of_mem hth
      rcases thr p i pr th hpr hth with ⟨pr0, a1, a2⟩ | ⟨-, -, a4⟩
      · exact hs.ne (hi.valid p pr0 a1 th (List.mem_of_getElem? a2))
      · rw [a4]; exact h2
    · intro p pr hpr hk th hth ha
      obtain ⟨i, hth⟩ := List.getElem?_of_mem hth
      rcases thr p i pr th hpr hth with ⟨pr0, a1, a2⟩ | ⟨-, -, a4⟩
      · obtain ⟨pr1, g1, g2, -⟩ := back p pr hpr
        rw [a1] at g1; injection g1 with g1; subst g1
        exact hs _ _ (hi.dead p pr0 a1 (g2 ▸ hk) th (List.mem_of_getElem? a2) ha)
      · rw [a4] at ha; cases ha
    · intro p pr hpr i hm
      obtain ⟨pr0, g1, -, g2⟩ := back p pr hpr
      rcases g2 with rfl | ⟨rfl, g2, g3⟩
      · exact hi.listed p pr g1 i hm
      · rw [g3]
        rw [g2] at hm
        rcases List.mem_append.mp hm with hm | hm
        · obtain ⟨th, a, b⟩ := hi.listed p pr0 g1 i hm
          exact ⟨th, List.mem_append_left _ a, b⟩
        · rcases hx with rfl | ⟨j, rfl, hx⟩
          · cases hm
          · rw [List.mem_singleton] at hm; subst hm
            exact ⟨⟨tg, true⟩, by simp, hx⟩
  | ran p0 i0 pr0 th0 hpr0 hth0 ha0 hp hc hsome hs =>
    have back : ∀ (p : ℕ) (pr : Provider), w'.providers[p]? = some pr → ∃ pr1, w.providers[p]? = some pr1 ∧
        pr.kind = pr1.kind ∧ pr.trades = pr1.trades ∧ ((pr = pr1 ∧ p ≠ p0) ∨ (p = p0 ∧ pr1 = pr0 ∧
          pr.threads = pr1.threads.modify i0 (fun th => { th with alive := false }))) := by
      intro p pr hpr
      rw [hp, List.getElem?_modify] at hpr
      rcases h0 : w.providers[p]? with _ | pr1
      · rw [h0] at hpr; cases hpr
      · rw [h0] at hpr
        by_cases hpp : p0 = p
        · simp only [hpp, if_true, Option.map_eq_map, Option.map_some] at hpr
          injection hpr with hpr; subst hpr
          refine ⟨pr1, rfl, rfl, rfl, .inr ⟨hpp.symm, ?_, rfl⟩⟩
          rw [hpp, h0] at hpr0; injection hpr0
        · simp only [hpp, if_false, Option.map_eq_map, Option.map_some] at hpr
          injection hpr with hpr; subst hpr
          exact ⟨pr1, rfl, rfl, rfl, .inl ⟨rfl, Ne.symm hpp⟩⟩
    have thr : ∀ (p i : ℕ) (pr : Provider) (th : Thread), w'.providers[p]? = some pr → pr.threads[i]? = some th →
        ∃ pr1 th1, w.providers[p]? = some pr1 ∧ pr1.threads[i]? = some th1 ∧ th.target = th1.target ∧
          pr.kind = pr1.kind ∧ (th.alive = th1.alive ∨ (p = p0 ∧ i = i0 ∧ th1 = th0 ∧ pr1 = pr0)) := by
      intro p i pr th hpr hth
      obtain ⟨pr1, g1, g2, -, g3⟩ := back p pr hpr
      rcases g3 with ⟨rfl, -⟩ | ⟨rfl, g3, g4⟩
      · exact ⟨pr, th, g1, hth, rfl, rfl, .inl rfl⟩
      · rw [g4, List.getElem?_modify] at hth
        rcases h0 : pr1.threads[i]? with _ | th1
        · rw [h0] at hth; cases hth
        · rw [h0] at hth
          by_cases hii : i0 = i
          · simp only [hii, if_true, Option.map_eq_map, Option.map_some] at hth
            injection hth with hth; subst hth
            refine ⟨pr1, th1, g1, h0, rfl, g2, .inr ⟨rfl, hii.symm, ?_, g3⟩⟩
            rw [g3, ← hii, hth0] at h0; injection h0 with h0; exact h0.symm
          · simp only [hii, if_false, Option.map_eq_map, Option.map_some] at hth
            injection hth with hth; subst hth
            exact ⟨pr1, th1, g1, h0, rfl, g2, .inl rfl⟩
    have hne : ∀ tg, Spec.statusOf w tg ≠ none → Spec.statusOf w' tg ≠ none := by
      intro tg h
      by_cases htg : tg = th0.target
      · subst htg; exact hsome h
      · rcases hx : Spec.statusOf w tg with _ | st
        · exact absurd hx h
        · rw [hs tg st htg hx]; simp
    refine ⟨?_, ?_, ?_, ?_⟩
    · intro p i p' i' pr pr' th th' hpr hpr' hth hth' ht
      obtain ⟨q1, t1, a1, a2, a3, -, -⟩ := thr p i pr th hpr hth
      obtain ⟨q2, t2, b1, b2, b3, -, -⟩ := thr p' i' pr' th' hpr' hth'
      exact hi.uniq p i p' i' q1 q2 t1 t2 a1 b1 a2 b2 (by rw [← a3, ← b3, ht])
    · intro p pr hpr th hth
      obtain ⟨i, hth⟩ := List.getElem?_of_mem hth
      obtain ⟨q1, t1, a1, a2, a3, -, -⟩ := thr p i pr th hpr hth
      rw [a3]; exact hne _ (hi.valid p q1 a1 t1 (List.mem_of_getElem? a2))
    · intro p pr hpr hk th hth ha
      obtain ⟨i, hth⟩ := List.getElem?_of_mem hth
      obtain ⟨q1, t1, a1, a2, a3, a4, a5⟩ := thr p i pr th hpr hth
      rw [a3]
      rcases a5 with a5 | ⟨rfl, rfl, rfl, rfl⟩
      · by_cases htg : t1.target = th0.target
        · obtain ⟨rfl, rfl⟩ := hi.uniq p i p0 i0 q1 pr0 t1 th0 a1 hpr0 a2 hth0 htg
          rw [hpr0] at a1; injection a1 with a1; subst a1
          rw [hth0] at a2; injection a2 with a2; subst a2
          rw [a5, ha0] at ha; cases ha
        · exact hs _ _ htg (hi.dead p q1 a1 (a4 ▸ hk) t1 (List.mem_of_getElem? a2) (a5 ▸ ha))
      · exact hc (a4 ▸ hk) (hi.valid p q1 a1 t1 (List.mem_of_getElem? a2))
    · intro p pr hpr i hm
      obtain ⟨pr1, g1, -, g2, g3⟩ := back p pr hpr
      rw [g2] at hm
      obtain ⟨th, a, b⟩ := hi.listed p pr1 g1 i hm
      rcases g3 with ⟨rfl, -⟩ | ⟨rfl, g3, g4⟩
      · exact ⟨th, a, b⟩
      · rw [g4]
        obtain ⟨j, hj⟩ := List.getElem?_of_mem a
        by_cases hji : i0 = j
        · exact ⟨⟨th.target, false⟩, List.mem_of_getElem? (i := j) (by rw [List.getElem?_modify, hj, hji]; simp), b⟩
        · exact ⟨th, List.mem_of_getElem? (i := j) (by rw [List.getElem?_modify, hj]; simp [hji]), b⟩

theorem WPrim.threadInv {V : Prop} {w w' : World} (hi : ThreadInv w) (h : WPrim V w w') : ThreadInv w' := by
  cases h with
  | prim h => exact h.tstep.inv hi
  | log ev => exact TStep.inv (w := w) hi (.same rfl (fun tg st h => by cases tg <;> exact h))
  | epics es h => exact TStep.inv (w := w) hi (.same rfl (fun tg st h => by cases tg <;> exact h))

theorem Init.threadInv {w : World} (h : w.Init) : ThreadInv w := by
  have hp : ∀ (p : ℕ) (pr : Provider), w.providers[p]? = some pr → pr.threads = [] ∧ pr.trades = [] := by
    intro p pr hpr
    obtain ⟨k, rfl⟩ := h.providers pr (List.mem_of_getElem? hpr)
    exact ⟨rfl, rfl⟩
  refine ⟨?_, ?_, ?_, ?_⟩
  · intro p i p' i' pr pr' th th' h1 h2 h3
    rw [(hp p pr h1).1] at h3; simp at h3
  · intro p pr h1 th hth; rw [(hp p pr h1).1] at hth; cases hth
  · intro p pr h1 _ th hth; rw [(hp p pr h1).1] at hth; cases hth
  · intro p pr h1 i hi; rw [(hp p pr h1).2] at hi; cases hi

theorem Reachable.threadInv {env : Env} {w : World} (h : Reachable env w) : ThreadInv w := by
  obtain ⟨w0, h0, hs⟩ := h.steps
  exact WSteps.inv (V := False) (fun _ _ hi hp => hp.threadInv hi) hs (Init.threadInv h0)

end

end Estrade
