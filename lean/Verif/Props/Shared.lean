import Verif.Shared
import Verif.Lemmas.EpicFront
import Verif.Demo
import Verif.Props.Epics

/-!
# C74: one tick object fed to several epics
-/

set_option linter.style.haveILetI false
set_option linter.unusedSectionVars false
set_option autoImplicit false

namespace Estrade

/-- Spec: the same command with a tick of its own. -/
def Spec.ownTick (ticks : List Tick) : ObjCmd → Cmd
  | .feed e i => .tick e ((ticks[i]?).getD Tick.epoch)
  | .cmd c => c

section
variable [Arith]

/-! ## What commands do to the clock of an epic -/

theorem clock_exec (env : Env) (w : World) (c : Cmd) (e : ℕ) (ep' : Epic)
    (h : (w.exec env c).1.epics[e]? = some ep') :
    ∃ ep, w.epics[e]? = some ep ∧ ep'.zone = ep.zone ∧
      ((∃ t, c = .tick e t ∧ w.accepts e t = true ∧ ep'.lastTick = { t with dt := t.dt.to ep.zone }) ∨
       ((∀ t, c = .tick e t → w.accepts e t = false) ∧ ep'.lastTick = ep.lastTick)) := by
  have h1 : ((w.exec env c).1.epics.map Epic.front)[e]? = some ep'.front := by rw [front_get, h]; rfl
  rw [exec_front] at h1
  have old : ∀ x : Epic, (w.epics.map Epic.front)[e]? = some x → ∃ ep, w.epics[e]? = some ep ∧ x = ep.front := by
    intro x hx
    rw [front_get] at hx
    rcases hep : w.epics[e]? with _ | ep
    · rw [hep] at hx; cases hx
    · rw [hep] at hx; injection hx with hx; exact ⟨ep, rfl, hx.symm⟩
  have same : (w.epics.map Epic.front)[e]? = some ep'.front → ∃ ep, w.epics[e]? = some ep ∧ ep'.zone = ep.zone ∧
      ep'.lastTick = ep.lastTick := by
    intro hx
    obtain ⟨ep, he, hf⟩ := old _ hx
    have hz := congrArg Epic.zone hf
    have hl := congrArg Epic.lastTick hf
    exact ⟨ep, he, hz, hl⟩
  have quietSet : ∀ (l : List Epic) (e' : ℕ) (x y : Epic), l = w.epics.map Epic.front → l[e']? = some x → y.zone = x.zone →
      y.lastTick = x.lastTick → (l.set e' y)[e]? = some ep'.front → ∃ ep, w.epics[e]? = some ep ∧ ep'.zone = ep.zone ∧
      ep'.lastTick = ep.lastTick := by
    intro l e' x y hl hx hz ht hs
    subst hl
    by_cases hee : e' = e
    · subst hee
      rw [List.getElem?_set_self (by
        rcases List.getElem?_eq_some_iff.mp hx with ⟨hlt, -⟩; exact hlt)] at hs
      injection hs with hs
      obtain ⟨ep, he, hf⟩ := old x hx
      refine ⟨ep, he, ?_, ?_⟩
      · have := congrArg Epic.zone hs; rw [hz, hf] at this; exact this.symm
      · have := congrArg Epic.lastTick hs; rw [ht, hf] at this; exact this.symm
    · rw [List.getElem?_set_ne hee] at hs
      exact same hs
  have close : (∀ t, c = .tick e t → w.accepts e t = false) → (∃ ep, w.epics[e]? = some ep ∧ ep'.zone = ep.zone ∧
      ep'.lastTick = ep.lastTick) → ∃ ep, w.epics[e]? = some ep ∧ ep'.zone = ep.zone ∧
      ((∃ t, c = .tick e t ∧ w.accepts e t = true ∧ ep'.lastTick = { t with dt := t.dt.to ep.zone }) ∨
       ((∀ t, c = .tick e t → w.accepts e t = false) ∧ ep'.lastTick = ep.lastTick)) := by
    rintro h0 ⟨ep, ha, hb, hc⟩
    exact ⟨ep, ha, hb, Or.inr ⟨h0, hc⟩⟩
  rcases c with ⟨e', x⟩ | o | ⟨e', ref, fs⟩ | ⟨e', s⟩ | ⟨e', ref, ind⟩
  · simp only [frontStep] at h1
    rcases hx : (w.epics.map Epic.front)[e']? with _ | f
    · rw [hx] at h1
      refine close ?_ (same h1)
      intro t ht
      cases ht
      unfold World.accepts
      rw [front_get] at hx
      rcases hep : w.epics[e]? with _ | ep
      · rfl
      · rw [hep] at hx; cases hx
    · rw [hx] at h1
      simp only at h1
      split_ifs at h1 with hlt
      · refine close ?_ (same h1)
        intro t ht
        cases ht
        obtain ⟨ep, he, hf⟩ := old f hx
        unfold World.accepts
        rw [he]
        rw [hf] at hlt
        change (!(x.dt.to ep.zone).lt ep.lastTick.dt) = false
        have : (x.dt.to ep.zone).lt ep.lastTick.dt = true := hlt
        rw [this]; rfl
      · by_cases hee : e' = e
        · subst hee
          obtain ⟨ep, he, hf⟩ := old f hx
          rw [List.getElem?_set_self (by rcases List.getElem?_eq_some_iff.mp hx with ⟨hlt, -⟩; exact hlt)] at h1
          injection h1 with h1
          refine ⟨ep, he, ?_, Or.inl ⟨x, rfl, ?_, ?_⟩⟩
          · have := congrArg Epic.zone h1; rw [hf] at this; exact this.symm
          · unfold World.accepts
            rw [he]
            rw [hf] at hlt
            have : ¬ (x.dt.to ep.zone).lt ep.lastTick.dt = true := hlt
            simpa using this
          · have := congrArg Epic.lastTick h1; rw [hf] at this; exact this.symm
        · rw [List.getElem?_set_ne hee] at h1
          refine close ?_ (same h1)
          intro t ht
          injection ht with ht1
          exact absurd ht1 hee
  · exact close (fun t ht => by cases ht) (same h1)
  · simp only [frontStep] at h1
    refine close (fun t ht => by cases ht) ?_
    rcases hx : (w.epics.map Epic.front)[e']? with _ | f
    · rw [hx] at h1; exact same h1
    · rw [hx] at h1
      simp only at h1
      rcases hg : f.frameSets.get? ref with _ | g
      · rw [hg] at h1; exact quietSet _ e' f { f with frameSets := f.frameSets.set ref fs } rfl hx rfl rfl h1
      · rw [hg] at h1; exact same h1
  · exact close (fun t ht => by cases ht) (same h1)
  · simp only [frontStep] at h1
    refine close (fun t ht => by cases ht) ?_
    rcases hx : (w.epics.map Epic.front)[e']? with _ | f
    · rw [hx] at h1; exact same h1
    · rw [hx] at h1
      simp only at h1
      rcases hg : f.frameSets.get? ref with _ | g
      · rw [hg] at h1; exact same h1
      · rw [hg] at h1; exact quietSet _ e' f { f with frameSets := f.frameSets.set ref (g.addIndicator ind).1 } rfl hx rfl rfl h1

/-! ## Objects that stay in one zone -/

/-- `L`: the commands of the whole run. -/
structure PoolInv (w₀ : World) (ticks : List Tick) (L : List ObjCmd) (s : World × Pool) : Prop where
  zones : ∀ (e : ℕ) (ep : Epic), s.1.epics[e]? = some ep → ∃ ep0 : Epic, w₀.epics[e]? = some ep0 ∧ ep.zone = ep0.zone
  objs : ∀ i : ℕ, (s.2.ticks[i]?).map (fun t => (t.dt.utc, t.bid, t.ask)) = (ticks[i]?).map (fun t => (t.dt.utc, t.bid, t.ask))
  held : ∀ e i : ℕ, s.2.held[e]? = some (some i) → ObjCmd.feed e i ∈ L ∧ ∀ ep : Epic, s.1.epics[e]? = some ep →
    ∀ t : Tick, ticks[i]? = some t → ep.lastTick = { t with dt := t.dt.to ep.zone }

/-- Spec: each object is only fed to epics of one zone. -/
def Spec.OneZone (w : World) (l : List ObjCmd) : Prop :=
  ∀ e e' i : ℕ, ObjCmd.feed e i ∈ l → ObjCmd.feed e' i ∈ l → ∀ ep ep' : Epic, w.epics[e]? = some ep → w.epics[e']? = some ep' → ep.zone = ep'.zone

theorem localTick_congr {t t0 : Tick} (h : (t.dt.utc, t.bid, t.ask) = (t0.dt.utc, t0.bid, t0.ask)) (z : Zone) :
    ({ t with dt := t.dt.to z } : Tick) = { t0 with dt := t0.dt.to z } := by
  rcases t with ⟨⟨u, _, _⟩, b, a⟩
  rcases t0 with ⟨⟨u', _, _⟩, b', a'⟩
  simp only [Prod.mk.injEq] at h
  obtain ⟨rfl, rfl, rfl⟩ := h
  rfl

theorem accepts_congr (w : World) (e : ℕ) {t t0 : Tick} (h : t.dt.utc = t0.dt.utc) : w.accepts e t = w.accepts e t0 := by
  unfold World.accepts DT.to
  rw [h]

theorem onNewTick_sameQuote (env : Env) (w : World) (e : ℕ) {t t0 : Tick}
    (h : (t.dt.utc, t.bid, t.ask) = (t0.dt.utc, t0.bid, t0.ask)) : w.onNewTick env e t = w.onNewTick env e t0 := by
  unfold World.onNewTick
  rcases w.epics[e]? with _ | ep
  · rfl
  · simp only [localTick_congr h]
    have : t.dt.to ep.zone = t0.dt.to ep.zone := congrArg Tick.dt (localTick_congr h ep.zone)
    rw [this]

theorem held_set {l : List (Option ℕ)} {e e' : ℕ} {o : Option ℕ} {i : ℕ} (h : (l.set e o)[e']? = some (some i)) :
    (e = e' ∧ o = some i) ∨ (e ≠ e' ∧ l[e']? = some (some i)) := by
  by_cases hee : e = e'
  · subst hee
    left
    refine ⟨rfl, ?_⟩
    rw [List.getElem?_set] at h
    simp only [if_true] at h
    split_ifs at h
    injection h
  · rw [List.getElem?_set_ne hee] at h
    exact Or.inr ⟨hee, h⟩

/-- One command: the same world as with an own tick, and the invariant. -/
theorem PoolInv.step (env : Env) {w₀ : World} {ticks : List Tick} {L : List ObjCmd} (hz : Spec.OneZone w₀ L)
    {s : World × Pool} (hs : PoolInv w₀ ticks L s) {c : ObjCmd} (hc : c ∈ L)
    (hr : ∀ e i, c = .feed e i → i < ticks.length) :
    (execObj env s c).1.1 = (s.1.exec env (Spec.ownTick ticks c)).1 ∧
      (execObj env s c).2 = (s.1.exec env (Spec.ownTick ticks c)).2 ∧ PoolInv w₀ ticks L (execObj env s c).1 := by
  rcases c with ⟨e, i⟩ | c
  · have hi := hr e i rfl
    have ht0 : ticks[i]? = some ticks[i] := List.getElem?_eq_getElem hi
    generalize ticks[i] = t0 at ht0
    have hown : Spec.ownTick ticks (.feed e i) = .tick e t0 := by
      simp only [Spec.ownTick, ht0, Option.getD_some]
    rw [hown]
    have ho := hs.objs i
    rw [ht0] at ho
    rcases ht : s.2.ticks[i]? with _ | t
    · rw [ht] at ho; cases ho
    · rw [ht] at ho
      simp only [Option.map_some, Option.some.injEq] at ho
      simp only [execObj, feedObject, ht]
      rcases hep : s.1.epics[e]? with _ | ep
      · simp only [World.exec, World.onNewTick, hep]
        exact ⟨trivial, trivial, hs⟩
      · simp only
        have hx := localTick_congr ho ep.zone
        have hret : s.1.retag s.2.held i { t with dt := t.dt.to ep.zone } = s.1 := by
          unfold World.retag
          have : s.1.epics.mapIdx (fun e' ep' => if s.2.held[e']? = some (some i) then
              { ep' with lastTick := { t with dt := t.dt.to ep.zone } } else ep') = s.1.epics := by
            apply List.ext_getElem?
            intro e'
            rw [List.getElem?_mapIdx]
            rcases hep' : s.1.epics[e']? with _ | ep'
            · rfl
            · simp only [Option.map_some]
              split_ifs with hh
              · obtain ⟨hm, hv⟩ := hs.held e' i hh
                obtain ⟨ep0, h0, hz0⟩ := hs.zones e ep hep
                obtain ⟨ep0', h0', hz0'⟩ := hs.zones e' ep' hep'
                have hzz := hz e e' i hc hm _ _ h0 h0'
                have hl := hv ep' hep' t0 ht0
                rw [hx, hz0, hzz, ← hz0', ← hl]
              · rfl
          rw [this]
        rw [hret]
        have hexec : s.1.onNewTick env e { t with dt := t.dt.to ep.zone } = s.1.exec env (.tick e t0) :=
          onNewTick_sameQuote env s.1 e (by
            simp only [Prod.mk.injEq] at ho ⊢
            exact ho)
        rw [hexec]
        refine ⟨rfl, rfl, ?_⟩
        have hacc : s.1.accepts e { t with dt := t.dt.to ep.zone } = s.1.accepts e t0 :=
          accepts_congr s.1 e (by simp only [Prod.mk.injEq] at ho; exact ho.1)
        rw [hacc]
        refine ⟨?_, ?_, ?_⟩
        · intro e' ep' h'
          obtain ⟨ep1, h1, h2, -⟩ := clock_exec env s.1 _ e' ep' h'
          rw [h2]
          exact hs.zones e' ep1 h1
        · intro j
          by_cases hij : i = j
          · subst hij
            simp only
            rw [List.getElem?_set_self (by rcases List.getElem?_eq_some_iff.mp ht with ⟨hlt, -⟩; exact hlt), ht0]
            simp only [Option.map_some, Option.some.injEq]
            exact ho
          · simp only
            rw [List.getElem?_set_ne hij]
            exact hs.objs j
        · intro e' j hh
          simp only at hh
          have hold : s.2.held[e']? = some (some j) → (e = e' → s.1.accepts e t0 = false) → ObjCmd.feed e' j ∈ L ∧
              ∀ ep', (s.1.exec env (.tick e t0)).1.epics[e']? = some ep' → ∀ t', ticks[j]? = some t' →
              ep'.lastTick = { t' with dt := t'.dt.to ep'.zone } := by
            intro h1 h2
            obtain ⟨hm, hv⟩ := hs.held e' j h1
            refine ⟨hm, ?_⟩
            intro ep' hep' t' ht'
            obtain ⟨ep1, h3, h4, h5⟩ := clock_exec env s.1 _ e' ep' hep'
            rcases h5 with ⟨u, hu, ha, -⟩ | ⟨-, h5⟩
            · cases hu
              rw [h2 rfl] at ha; cases ha
            · rw [h5, h4]
              exact hv ep1 h3 t' ht'
          split_ifs at hh with hacc'
          · rcases held_set hh with ⟨rfl, hj⟩ | ⟨hne, hj⟩
            · cases hj
              refine ⟨hc, ?_⟩
              intro ep' hep' t' ht'
              obtain ⟨ep1, h3, h4, h5⟩ := clock_exec env s.1 _ e ep' hep'
              rw [ht0] at ht'
              cases ht'
              rcases h5 with ⟨u, hu, ha, h5⟩ | ⟨h5, -⟩
              · cases hu
                rw [h5, h4]
              · rw [h5 t0 rfl] at hacc'; cases hacc'
            · exact hold hj (fun h => absurd h hne)
          · exact hold hh (fun _ => by simpa using hacc')
  · refine ⟨rfl, rfl, ?_⟩
    simp only [execObj]
    refine ⟨?_, hs.objs, ?_⟩
    · intro e' ep' h'
      obtain ⟨ep1, h1, h2, -⟩ := clock_exec env s.1 c e' ep' h'
      rw [h2]
      exact hs.zones e' ep1 h1
    · intro e' j hh
      have hold : s.2.held[e']? = some (some j) → (∀ t, c = .tick e' t → s.1.accepts e' t = false) → ObjCmd.feed e' j ∈ L ∧
          ∀ ep', (s.1.exec env c).1.epics[e']? = some ep' → ∀ t', ticks[j]? = some t' →
          ep'.lastTick = { t' with dt := t'.dt.to ep'.zone } := by
        intro h1 h2
        obtain ⟨hm, hv⟩ := hs.held e' j h1
        refine ⟨hm, ?_⟩
        intro ep' hep' t' ht'
        obtain ⟨ep1, h3, h4, h5⟩ := clock_exec env s.1 _ e' ep' hep'
        rcases h5 with ⟨u, hu, ha, -⟩ | ⟨-, h5⟩
        · rw [h2 u hu] at ha; cases ha
        · rw [h5, h4]
          exact hv ep1 h3 t' ht'
      rcases c with ⟨e, x⟩ | o | ⟨e, ref, fs⟩ | ⟨e, st⟩ | ⟨e, ref, ind⟩
      · simp only at hh
        split_ifs at hh with hacc'
        · rcases held_set hh with ⟨rfl, hj⟩ | ⟨hne, hj⟩
          · cases hj
          · exact hold hj (fun t ht => by injection ht with h1; exact absurd h1 hne)
        · refine hold hh (fun t ht => ?_)
          cases ht
          simpa using hacc'
      · exact hold hh (fun t ht => by cases ht)
      · exact hold hh (fun t ht => by cases ht)
      · exact hold hh (fun t ht => by cases ht)
      · exact hold hh (fun t ht => by cases ht)

theorem poolInv_init (w : World) (ticks : List Tick) (L : List ObjCmd) : PoolInv w ticks L (w, Pool.fresh w ticks) := by
  refine ⟨fun e ep h => ⟨ep, h, rfl⟩, fun i => rfl, ?_⟩
  intro e i h
  exfalso
  simp only [Pool.fresh, List.getElem?_map] at h
  rcases hx : w.epics[e]? with _ | ep
  · rw [hx] at h; cases h
  · rw [hx] at h; injection h with h; cases h

/-- C74: when every tick object is only fed to epics of one zone (as often as one likes), the program behaves as with a
fresh tick for every call: same world (quotes, frames, trades, notifications) whatever the strategies do. -/
theorem C74_one_zone_partial (env : Env) (w : World) (ticks : List Tick) (l : List ObjCmd)
    (hr : ∀ e i, ObjCmd.feed e i ∈ l → i < ticks.length) (hz : Spec.OneZone w l) :
    (runObjs env (w, Pool.fresh w ticks) l).1 = w.runCmds env (l.map (Spec.ownTick ticks)) := by
  have key : ∀ (l' : List ObjCmd) (s : World × Pool), (∀ c ∈ l', c ∈ l) → PoolInv w ticks l s →
      (runObjs env s l').1 = s.1.runCmds env (l'.map (Spec.ownTick ticks)) := by
    intro l'
    induction l' with
    | nil => intro s _ _; rfl
    | cons c l' ih =>
      intro s hm hs
      obtain ⟨h1, -, h2⟩ := hs.step env hz (hm c (by simp)) (fun e i he => hr e i (he ▸ hm c (by simp)))
      have := ih (execObj env s c).1 (fun d hd => hm d (by simp [hd])) h2
      simp only [runObjs, List.foldl_cons, List.map_cons, World.runCmds] at this ⊢
      rw [this, h1]
  exact key l _ (fun c hc => hc) (poolInv_init w ticks l)

/-! ## Objects that move between zones -/

/-- Spec: a table of zones; its clocks never stand still or go back, number 0 is UTC (the zone of the first `last_tick`). -/
structure Spec.Clocks (Z : ℕ → Zone) : Prop where
  utc : ∀ u, (Z 0).off u = 0
  strict : ∀ n u v, u < v → u + (Z n).off u < v + (Z n).off v

/-- The datetime shows what the table says. -/
def DT.Of (Z : ℕ → Zone) (d : DT) : Prop := d.wall = d.utc + (Z d.tz).off d.utc

theorem lt_of_clocks {Z : ℕ → Zone} (hZ : Spec.Clocks Z) {a b : DT} (ha : a.Of Z) (hb : b.Of Z) :
    a.lt b = decide (a.utc < b.utc) := by
  unfold DT.lt
  split_ifs with h
  · unfold DT.Of at ha hb
    rw [ha, hb, h]
    apply decide_eq_decide.mpr
    constructor
    · intro h1
      by_contra h2
      rcases eq_or_lt_of_le (not_lt.mp h2) with h3 | h3
      · rw [h3] at h1; omega
      · have := hZ.strict b.tz _ _ h3; omega
    · exact hZ.strict b.tz _ _
  · rfl

/-- An epic without strategies and without the zone of its last tick. -/
def Epic.timeless (ep : Epic) : Epic :=
  { ep.front with lastTick := { ep.lastTick with dt := ⟨ep.lastTick.dt.utc, 0, 0⟩ } }

/-- Same market side. -/
structure SameMarket (Z : ℕ → Zone) (a b : Epic) : Prop where
  eq : a.timeless = b.timeless
  zone : a.zone.off = (Z a.zone.id).off
  fst : a.lastTick.dt.Of Z
  snd : b.lastTick.dt.Of Z

theorem SameMarket.zoneEq {Z : ℕ → Zone} {a b : Epic} (h : SameMarket Z a b) : a.zone = b.zone := by
  have := congrArg Epic.zone h.eq; exact this

theorem SameMarket.setsEq {Z : ℕ → Zone} {a b : Epic} (h : SameMarket Z a b) : a.frameSets = b.frameSets := by
  have := congrArg Epic.frameSets h.eq; exact this

theorem SameMarket.utcEq {Z : ℕ → Zone} {a b : Epic} (h : SameMarket Z a b) :
    a.lastTick.dt.utc = b.lastTick.dt.utc := by
  have := congrArg (fun e => e.lastTick.dt.utc) h.eq; exact this

theorem of_to {Z : ℕ → Zone} {z : Zone} (hz : z.off = (Z z.id).off) (d : DT) : (d.to z).Of Z := by
  unfold DT.Of DT.to
  simp only
  rw [hz]

theorem accept_timeless (a : Epic) (x : Tick) : ∀ b : Epic, a.timeless = b.timeless →
    (a.front.accept x).1 = (b.front.accept x).1 := by
  intro b h
  have h1 : ({ a.front with lastTick := x } : Epic) = { b.front with lastTick := x } := by
    have := congrArg (fun e : Epic => ({ e with lastTick := x } : Epic)) h
    exact this
  have h2 : ∀ e : Epic, (e.accept x).1 = (({ e with lastTick := x } : Epic).accept x).1 := fun e => rfl
  rw [h2, h1, ← h2]

theorem SameMarket.front {Z : ℕ → Zone} {a b : Epic} (h : SameMarket Z a b) : SameMarket Z a.front b.front :=
  ⟨h.eq, h.zone, h.fst, h.snd⟩

theorem SameMarket.accepts {Z : ℕ → Zone} (hZ : Spec.Clocks Z) {a b : Epic} (h : SameMarket Z a b) (d : DT) :
    (d.to a.zone).lt a.lastTick.dt = (d.to b.zone).lt b.lastTick.dt := by
  rw [lt_of_clocks hZ (of_to h.zone d) h.fst, lt_of_clocks hZ (of_to (h.zoneEq ▸ h.zone) d) h.snd, h.utcEq]
  rfl

theorem SameMarket.accept {Z : ℕ → Zone} {a b : Epic} (h : SameMarket Z a b) (ha : a.strategies = []) (hb : b.strategies = [])
    (t : Tick) : SameMarket Z (a.accept { t with dt := t.dt.to a.zone }).1 (b.accept { t with dt := t.dt.to b.zone }).1 := by
  have hfa : a.front = a := by unfold Epic.front; rw [← ha]
  have hfb : b.front = b := by unfold Epic.front; rw [← hb]
  have := accept_timeless a { t with dt := t.dt.to a.zone } b h.eq
  rw [hfa, hfb] at this
  refine ⟨?_, h.zone, of_to h.zone t.dt, of_to (h.zoneEq ▸ h.zone) t.dt⟩
  rw [this, h.zoneEq]

/-- Spec: lists of epics with the same market side. -/
abbrev SameMarkets (Z : ℕ → Zone) (l l' : List Epic) : Prop :=
  List.Forall₂ (fun a b => SameMarket Z a b ∧ a.strategies = [] ∧ b.strategies = []) l l'

theorem forall₂_getElem? {α β : Type} {R : α → β → Prop} {l : List α} {l' : List β} (h : List.Forall₂ R l l') (i : ℕ) :
    (l[i]? = none ∧ l'[i]? = none) ∨ ∃ a b, l[i]? = some a ∧ l'[i]? = some b ∧ R a b := by
  induction h generalizing i with
  | nil => left; simp
  | cons h _ ih =>
    rcases i with _ | i
    · right; exact ⟨_, _, rfl, rfl, h⟩
    · simpa using ih i

theorem forall₂_set {α β : Type} {R : α → β → Prop} {l : List α} {l' : List β} (h : List.Forall₂ R l l') (i : ℕ) {a : α}
    {b : β} (hab : R a b) : List.Forall₂ R (l.set i a) (l'.set i b) := by
  induction h generalizing i with
  | nil => exact .nil
  | cons h ht ih =>
    rcases i with _ | i
    · exact .cons hab ht
    · exact .cons h (ih i)

theorem SameMarkets.step {Z : ℕ → Zone} (hZ : Spec.Clocks Z) {l l' : List Epic} (h : SameMarkets Z l l') (c c' : Cmd)
    (hc : c = c' ∨ ∃ e t t', c = .tick e t ∧ c' = .tick e t' ∧ (t.dt.utc, t.bid, t.ask) = (t'.dt.utc, t'.bid, t'.ask)) :
    SameMarkets Z (frontStep l c) (frontStep l' c') := by
  have htick : ∀ e (t t' : Tick), (t.dt.utc, t.bid, t.ask) = (t'.dt.utc, t'.bid, t'.ask) →
      SameMarkets Z (frontStep l (.tick e t)) (frontStep l' (.tick e t')) := by
    intro e t t' ht
    simp only [frontStep]
    rcases forall₂_getElem? h e with ⟨h1, h2⟩ | ⟨a, b, h1, h2, hR, ha, hb⟩
    · rw [h1, h2]; exact h
    · rw [h1, h2]
      simp only
      have hx : t.dt.to a.zone = t'.dt.to a.zone := congrArg Tick.dt (localTick_congr ht a.zone)
      have h3 := hR.accepts hZ t'.dt
      rw [localTick_congr ht, hx, h3]
      split_ifs
      · exact h
      · exact forall₂_set h e ⟨hR.accept ha hb t', ha, hb⟩
  rcases hc with rfl | ⟨e, t, t', rfl, rfl, ht⟩
  · rcases c with ⟨e, x⟩ | o | ⟨e, ref, fs⟩ | ⟨e, s⟩ | ⟨e, ref, ind⟩
    · exact htick e x x rfl
    · exact h
    · simp only [frontStep]
      rcases forall₂_getElem? h e with ⟨h1, h2⟩ | ⟨a, b, h1, h2, hR, ha, hb⟩
      · rw [h1, h2]; exact h
      · rw [h1, h2]
        simp only
        rw [← hR.setsEq]
        rcases a.frameSets.get? ref with _ | g
        · refine forall₂_set h e ⟨⟨?_, hR.zone, hR.fst, hR.snd⟩, ha, hb⟩
          have := congrArg (fun e : Epic => ({ e with frameSets := a.frameSets.set ref fs } : Epic)) hR.eq
          exact this
        · exact h
    · exact h
    · simp only [frontStep]
      rcases forall₂_getElem? h e with ⟨h1, h2⟩ | ⟨a, b, h1, h2, hR, ha, hb⟩
      · rw [h1, h2]; exact h
      · rw [h1, h2]
        simp only
        rw [← hR.setsEq]
        rcases a.frameSets.get? ref with _ | g
        · exact h
        · refine forall₂_set h e ⟨⟨?_, hR.zone, hR.fst, hR.snd⟩, ha, hb⟩
          have := congrArg (fun e : Epic => ({ e with frameSets := a.frameSets.set ref (g.addIndicator ind).1 } : Epic)) hR.eq
          exact this
  · exact htick e t t' ht

/-- The held objects are what the epics show, up to the zone. -/
structure HoldInv (Z : ℕ → Zone) (ticks : List Tick) (s : World × Pool) (v : World) : Prop where
  markets : SameMarkets Z (s.1.epics.map Epic.front) (v.epics.map Epic.front)
  objs : ∀ i : ℕ, (s.2.ticks[i]?).map (fun t => (t.dt.utc, t.bid, t.ask)) = (ticks[i]?).map (fun t => (t.dt.utc, t.bid, t.ask))
  held : ∀ e i : ℕ, s.2.held[e]? = some (some i) → ∀ ep : Epic, s.1.epics[e]? = some ep → ∀ t : Tick, ticks[i]? = some t →
    (ep.lastTick.dt.utc, ep.lastTick.bid, ep.lastTick.ask) = (t.dt.utc, t.bid, t.ask)

theorem retag_markets {Z : ℕ → Zone} {w : World} {l' : List Epic} (h : SameMarkets Z (w.epics.map Epic.front) l')
    (held : List (Option ℕ)) (i : ℕ) (x : Tick) (hx : x.dt.Of Z)
    (hh : ∀ e : ℕ, held[e]? = some (some i) → ∀ ep : Epic, w.epics[e]? = some ep →
      (ep.lastTick.dt.utc, ep.lastTick.bid, ep.lastTick.ask) = (x.dt.utc, x.bid, x.ask)) :
    SameMarkets Z ((w.retag held i x).epics.map Epic.front) l' := by
  unfold World.retag
  simp only
  generalize hl : w.epics = l at h hh
  clear hl
  -- element by element
  have key : ∀ (l l' : List Epic) (n : ℕ), SameMarkets Z (l.map Epic.front) l' →
      (∀ e : ℕ, held[e + n]? = some (some i) → ∀ ep : Epic, l[e]? = some ep →
      (ep.lastTick.dt.utc, ep.lastTick.bid, ep.lastTick.ask) = (x.dt.utc, x.bid, x.ask)) →
      SameMarkets Z ((l.mapIdx (fun e ep => if held[e + n]? = some (some i) then { ep with lastTick := x } else ep)).map
        Epic.front) l' := by
    intro l
    induction l with
    | nil => intro l' n h _; simpa using h
    | cons ep l ih =>
      intro l' n h hh
      rw [List.map_cons] at h
      rcases h with _ | ⟨hR, ht⟩
      rename_i b l''
      rw [List.mapIdx_cons, List.map_cons]
      refine .cons ?_ ?_
      · split_ifs with hc
        · have := hh 0 hc ep rfl
          obtain ⟨hR, -, hb⟩ := hR
          refine ⟨⟨?_, hR.zone, hx, hR.snd⟩, rfl, hb⟩
          rw [← hR.eq]
          unfold Epic.timeless Epic.front
          simp only [Prod.mk.injEq] at this ⊢
          rw [this.1, this.2.1, this.2.2]
        · exact hR
      · have := ih l'' (n + 1) ht (fun e he ep' hep' => hh (e + 1) (by rw [← he]; congr 1; omega) ep' (by simpa using hep'))
        have hf : (fun e ep => if held[e + (n + 1)]? = some (some i) then ({ ep with lastTick := x } : Epic) else ep) =
            (fun e ep => if held[e + 1 + n]? = some (some i) then ({ ep with lastTick := x } : Epic) else ep) := by
          funext e ep
          have : e + (n + 1) = e + 1 + n := by omega
          rw [this]
        rw [hf] at this
        exact this
  simpa using key l l' 0 h (by simpa using hh)

theorem HoldInv.step {Z : ℕ → Zone} (hZ : Spec.Clocks Z) (env env' : Env) {ticks : List Tick} {s : World × Pool} {v : World}
    (hs : HoldInv Z ticks s v) (c : ObjCmd) (hr : ∀ e i, c = .feed e i → i < ticks.length) :
    HoldInv Z ticks (execObj env s c).1 (v.exec env' (Spec.ownTick ticks c)).1 := by
  rcases c with ⟨e, i⟩ | c
  · have hi := hr e i rfl
    have ht0 : ticks[i]? = some ticks[i] := List.getElem?_eq_getElem hi
    generalize ticks[i] = t0 at ht0
    have hown : Spec.ownTick ticks (.feed e i) = .tick e t0 := by
      simp only [Spec.ownTick, ht0, Option.getD_some]
    rw [hown]
    have ho := hs.objs i
    rw [ht0] at ho
    rcases ht : s.2.ticks[i]? with _ | t
    · rw [ht] at ho; cases ho
    · rw [ht] at ho
      simp only [Option.map_some, Option.some.injEq] at ho
      simp only [execObj, feedObject, ht]
      rcases hep : s.1.epics[e]? with _ | ep
      · simp only
        refine ⟨?_, hs.objs, hs.held⟩
        have : v.epics[e]? = none := by
          rcases forall₂_getElem? hs.markets e with ⟨-, h2⟩ | ⟨a, b, h1, -⟩
          · simpa using h2
          · rw [front_get, hep] at h1; cases h1
        simp only [World.exec, World.onNewTick, this]
        exact hs.markets
      · simp only
        generalize hx : ({ t with dt := t.dt.to ep.zone } : Tick) = x
        have hxt : (x.dt.utc, x.bid, x.ask) = (t0.dt.utc, t0.bid, t0.ask) := by rw [← hx]; exact ho
        have hxZ : x.dt.Of Z := by
          rw [← hx]
          rcases forall₂_getElem? hs.markets e with ⟨h1, -⟩ | ⟨a, b, h1, -, hR, -⟩
          · rw [front_get, hep] at h1; cases h1
          · rw [front_get, hep] at h1
            injection h1 with h1
            have hz := hR.zone
            rw [← h1] at hz
            exact of_to hz t.dt
        have hh : ∀ e' : ℕ, s.2.held[e']? = some (some i) → ∀ ep' : Epic, s.1.epics[e']? = some ep' →
            (ep'.lastTick.dt.utc, ep'.lastTick.bid, ep'.lastTick.ask) = (x.dt.utc, x.bid, x.ask) :=
          fun e' he' ep' hep' => (hs.held e' i he' ep' hep' t0 ht0).trans hxt.symm
        have hm := retag_markets hs.markets s.2.held i x hxZ hh
        have hret : ∀ (e' : ℕ) (ep' : Epic), (s.1.retag s.2.held i x).epics[e']? = some ep' → ∃ ep1, s.1.epics[e']? = some ep1 ∧
            (ep'.lastTick = ep1.lastTick ∨ ep'.lastTick = x ∧ s.2.held[e']? = some (some i)) := by
          intro e' ep' h'
          unfold World.retag at h'
          simp only [List.getElem?_mapIdx] at h'
          rcases h1 : s.1.epics[e']? with _ | ep1
          · rw [h1] at h'; cases h'
          · rw [h1] at h'
            simp only [Option.map_some, Option.some.injEq] at h'
            refine ⟨ep1, rfl, ?_⟩
            split_ifs at h' with hc
            · right; rw [← h']; exact ⟨rfl, hc⟩
            · left; rw [h']
        refine ⟨?_, ?_, ?_⟩
        · have h1 := exec_front env (s.1.retag s.2.held i x) (.tick e x)
          have h2 := exec_front env' v (.tick e t0)
          change SameMarkets Z (((s.1.retag s.2.held i x).exec env (.tick e x)).1.epics.map Epic.front) _
          rw [h1, h2]
          exact hm.step hZ _ _ (Or.inr ⟨e, x, t0, rfl, rfl, hxt⟩)
        · intro j
          simp only
          by_cases hij : i = j
          · subst hij
            rw [List.getElem?_set_self (by rcases List.getElem?_eq_some_iff.mp ht with ⟨hlt, -⟩; exact hlt), ht0]
            simp only [Option.map_some, Option.some.injEq]
            exact hxt
          · rw [List.getElem?_set_ne hij]
            exact hs.objs j
        · intro e' j hj ep' hep' t' ht'
          simp only at hj hep'
          obtain ⟨ep1, h1, -, h2⟩ := clock_exec env (s.1.retag s.2.held i x) (.tick e x) e' ep' hep'
          obtain ⟨ep2, h3, h4⟩ := hret e' ep1 h1
          have hold : s.2.held[e']? = some (some j) → ep'.lastTick = ep1.lastTick →
              (ep'.lastTick.dt.utc, ep'.lastTick.bid, ep'.lastTick.ask) = (t'.dt.utc, t'.bid, t'.ask) := by
            intro h5 h6
            rw [h6]
            rcases h4 with h4 | ⟨h4, h7⟩
            · rw [h4]; exact hs.held e' j h5 ep2 h3 t' ht'
            · rw [h4]
              rw [h5] at h7
              cases h7
              rw [ht0] at ht'
              cases ht'
              exact hxt
          rcases h2 with ⟨u, hu, ha, h6⟩ | ⟨h5, h6⟩
          · cases hu
            rw [if_pos ha] at hj
            rcases held_set hj with ⟨-, hj'⟩ | ⟨hne, -⟩
            · cases hj'
              rw [ht0] at ht'
              cases ht'
              rw [h6]
              exact hxt
            · exact absurd rfl hne
          · split_ifs at hj with hacc
            · rcases held_set hj with ⟨rfl, -⟩ | ⟨-, hj'⟩
              · rw [h5 x rfl] at hacc; cases hacc
              · exact hold hj' h6
            · exact hold hj h6
  · simp only [execObj, Spec.ownTick]
    refine ⟨?_, hs.objs, ?_⟩
    · simp only
      rw [exec_front, exec_front]
      exact hs.markets.step hZ _ _ (Or.inl rfl)
    · intro e' j hj ep' hep' t' ht'
      simp only at hj hep'
      obtain ⟨ep1, h1, -, h2⟩ := clock_exec env s.1 c e' ep' hep'
      rcases h2 with ⟨u, rfl, ha, h6⟩ | ⟨h5, h6⟩
      · simp only at hj
        rw [if_pos ha] at hj
        rcases held_set hj with ⟨-, hj'⟩ | ⟨hne, -⟩
        · cases hj'
        · exact absurd rfl hne
      · rw [h6]
        refine hs.held e' j ?_ ep1 h1 t' ht'
        rcases c with ⟨e, x⟩ | o | ⟨e, ref, fs⟩ | ⟨e, st⟩ | ⟨e, ref, ind⟩
        · simp only at hj
          split_ifs at hj with hacc
          · rcases held_set hj with ⟨rfl, hj'⟩ | ⟨-, hj'⟩
            · cases hj'
            · exact hj'
          · exact hj
        · exact hj
        · exact hj
        · exact hj
        · exact hj

/-- C74: with clocks that never go back, whatever objects are shared between zones, acceptance of ticks, the market states
that the callbacks are based on, frames and indicators are those of the program with a fresh tick for every call; also the instant and
the prices of the last tick.  Missing: the zone in which `last_tick.datetime` is expressed (`C74_false`) and what user
code makes of it. -/
theorem C74_market_partial (Z : ℕ → Zone) (hZ : Spec.Clocks Z) (env env' : Env) (w : World) (hw : w.Init)
    (hwZ : ∀ ep ∈ w.epics, ep.zone.off = (Z ep.zone.id).off) (ticks : List Tick) (l : List ObjCmd)
    (hr : ∀ e i, ObjCmd.feed e i ∈ l → i < ticks.length) :
    List.Forall₂ (fun ep ep' : Epic => ep.frameSets = ep'.frameSets ∧ ep.marketOpen = ep'.marketOpen ∧
        ep.lastTick.dt.utc = ep'.lastTick.dt.utc ∧ ep.lastTick.bid = ep'.lastTick.bid ∧ ep.lastTick.ask = ep'.lastTick.ask)
      (runObjs env (w, Pool.fresh w ticks) l).1.epics (w.runCmds env' (l.map (Spec.ownTick ticks))).epics := by
  have h0 : HoldInv Z ticks (w, Pool.fresh w ticks) w := by
    refine ⟨?_, fun i => rfl, ?_⟩
    · refine List.forall₂_same.mpr ?_
      intro f hf
      obtain ⟨ep, hep, rfl⟩ := List.mem_map.mp hf
      have hd : ep.lastTick.dt.Of Z := by
        obtain ⟨ref, z, o, c, td, h, p, -, rfl⟩ := hw.epics ep hep
        unfold DT.Of
        change midnight 1900 1 1 = midnight 1900 1 1 + (Z 0).off (midnight 1900 1 1)
        rw [hZ.utc]; omega
      exact ⟨⟨rfl, hwZ ep hep, hd, hd⟩, rfl, rfl⟩
    · intro e i h
      exfalso
      simp only [Pool.fresh, List.getElem?_map] at h
      rcases hx : w.epics[e]? with _ | ep
      · rw [hx] at h; cases h
      · rw [hx] at h; injection h with h; cases h
  have key : ∀ (l : List ObjCmd) (s : World × Pool) (v : World), (∀ e i, ObjCmd.feed e i ∈ l → i < ticks.length) →
      HoldInv Z ticks s v → HoldInv Z ticks (runObjs env s l) (v.runCmds env' (l.map (Spec.ownTick ticks))) := by
    intro l
    induction l with
    | nil => intro s v _ h; exact h
    | cons c l ih =>
      intro s v hr h
      exact ih _ _ (fun e i he => hr e i (by simp [he])) (h.step hZ env env' c (fun e i he => hr e i (by simp [he])))
  have h := (key l _ _ hr h0).markets
  unfold SameMarkets at h
  rw [List.forall₂_map_left_iff, List.forall₂_map_right_iff] at h
  refine h.imp ?_
  intro a b hab
  obtain ⟨hR, -, -⟩ := hab
  refine ⟨hR.setsEq, ?_, hR.utcEq, ?_, ?_⟩
  · have := congrArg Epic.marketOpen hR.eq; exact this
  · have := congrArg (fun e => e.lastTick.bid) hR.eq; exact this
  · have := congrArg (fun e => e.lastTick.ask) hR.eq; exact this

end

/-! ## Concrete cases -/

/-- Asia/Tokyo (no clock changes since 1951). -/
def Zone.tokyo : Zone := ⟨9, fun _ => 9 * hourUs, fun x => x⟩

/-- Two epics, London hours in UTC and Tokyo. -/
private def twoZones : World :=
  ⟨[Epic.new "L" Zone.utc (8 * hourUs) (16 * hourUs) [] [] 0, Epic.new "T" Zone.tokyo (8 * hourUs) (16 * hourUs) [] [] 0],
   [], [Provider.new .backtests], [], []⟩

/-- C74 is false for `is_market_open()`: a tick of Monday 10:00 UTC, London is open; the same object is then fed to the Tokyo
epic, and London, that received nothing, says it is closed (19:00).  With a tick of its own for each it stays open. -/
theorem C74_false : letI := Arith.exact
    let ticks := [Demo.tk 600 1 1]
    let isOpen (w : World) : Option Bool := (w.epics[0]?).map Epic.isMarketOpen
    isOpen (runObjs Demo.quiet (twoZones, Pool.fresh twoZones ticks) [.feed 0 0]).1 = some true ∧
    isOpen (runObjs Demo.quiet (twoZones, Pool.fresh twoZones ticks) [.feed 0 0, .feed 1 0]).1 = some false ∧
    isOpen (twoZones.runCmds Demo.quiet ([.feed 0 0, .feed 1 0].map (Spec.ownTick ticks))) = some true := by
  letI := Arith.exact
  decide +kernel

/-- C74: without the hypothesis on clocks even acceptance depends on sharing.  Clocks go back on epic 0: a later tick is
refused (C16), but accepted when the previous tick object has meanwhile been fed to another epic. -/
theorem C74_clock_change : letI := Arith.exact
    let w : World := ⟨[Epic.new "E" fallBack 0 dayUs [] [] 0, Epic.new "U" Zone.utc 0 dayUs [] [] 0], [], [Provider.new .backtests], [], []⟩
    let ticks : List Tick := [⟨⟨midnight 2020 10 25 - 1, midnight 2020 10 25 - 1, 0⟩, 1, 1⟩,
      ⟨⟨midnight 2020 10 25, midnight 2020 10 25, 0⟩, 1, 1⟩]
    (execObj Demo.quiet (runObjs Demo.quiet (w, Pool.fresh w ticks) [.feed 0 0]) (.feed 0 1)).2 = some .epic ∧
    (execObj Demo.quiet (runObjs Demo.quiet (w, Pool.fresh w ticks) [.feed 0 0, .feed 1 0]) (.feed 0 1)).2 = none := by
  letI := Arith.exact
  decide +kernel

/-- C74: the hypotheses of the partial theorems hold for these two epics. -/
example : Spec.Clocks (fun n => if n = 9 then Zone.tokyo else Zone.utc) ∧
    (∀ ep ∈ twoZones.epics, ep.zone.off = ((fun n => if n = 9 then Zone.tokyo else Zone.utc) ep.zone.id).off) := by
  refine ⟨⟨fun u => rfl, ?_⟩, ?_⟩
  · intro n u v h
    by_cases hn : n = 9
    · simp only [hn, if_true, Zone.tokyo]; omega
    · simp only [hn, if_false, Zone.utc]; omega
  · intro ep hep
    simp only [twoZones, List.mem_cons, List.not_mem_nil, or_false] at hep
    rcases hep with rfl | rfl <;> rfl

/-- C74: one object fed twice to each of two epics of the same zone; the world has a frame set. -/
example : letI := Arith.exact
    let ticks := [Demo.tk 600 1 1, Demo.tk 601 1 3]
    let l : List ObjCmd := [.cmd (.addFrameSet 0 "UT1" Demo.minutes), .feed 0 0, .feed 1 0, .feed 0 0, .feed 0 1, .feed 1 1]
    ((runObjs Demo.quiet (Demo.world, Pool.fresh Demo.world ticks) l).1.epics.map (fun ep => ep.lastTick.ask) = [3, 3]) ∧
    (runObjs Demo.quiet (Demo.world, Pool.fresh Demo.world ticks) l).2.held = [some 1, some 1] := by
  letI := Arith.exact
  decide +kernel

end Estrade
