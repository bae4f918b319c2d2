import Verif.Lemmas.WorldLog
import Verif.Lemmas.Dicts

/-!
# Epics over whole runs
-/

set_option linter.unusedSectionVars false
set_option autoImplicit false

namespace Estrade

/-- Spec: the calendar test, on a local wall clock in microseconds since day 0: opening and closing times are
inclusive, day 1 (1 January of year 1) is a Monday. -/
def Spec.InSession (openTime closeTime : ℤ) (tradeDays holidays : List ℤ) (wall : ℤ) : Prop :=
  openTime ≤ wall % 86400000000 ∧ wall % 86400000000 ≤ closeTime ∧
  (wall / 86400000000 - 1) % 7 ∈ tradeDays ∧ wall / 86400000000 ∉ holidays

instance (o c : ℤ) (td h : List ℤ) (w : ℤ) : Decidable (Spec.InSession o c td h w) := by
  unfold Spec.InSession; infer_instance

/-- Spec: the session test with the configuration of an epic. -/
abbrev Spec.Open (ep : Epic) (wall : ℤ) : Prop :=
  Spec.InSession ep.openTime ep.closeTime ep.tradeDays ep.holidays wall

/-- Spec: a tick as seen by an epic, in its zone. -/
def Spec.localTick (z : Zone) (t : Tick) : Tick := { t with dt := ⟨t.dt.utc, t.dt.utc + z.off t.dt.utc, z.id⟩ }

/-- Spec: the ticks an epic accepted, in order. -/
def Spec.acceptedOn (e : ℕ) (log : List Event) : List Tick :=
  log.filterMap (fun ev => match ev with
    | .accepted e' t => if e' = e then some t else none
    | .notify _ _ _ => none)

/-- Spec: the ticks fed to an epic by a program, in order. -/
def Spec.fedTo (e : ℕ) (l : List Cmd) : List Tick :=
  l.filterMap (fun c => match c with
    | .tick e' t => if e' = e then some t else none
    | _ => none)

theorem acceptedOn_append (e : ℕ) (a b : List Event) :
    Spec.acceptedOn e (a ++ b) = Spec.acceptedOn e a ++ Spec.acceptedOn e b := by
  unfold Spec.acceptedOn; rw [List.filterMap_append]

theorem acceptedOn_notify (e : ℕ) (L : List Event) (h : ∀ ev ∈ L, ∃ s e' cb, ev = .notify s e' cb) :
    Spec.acceptedOn e L = [] := by
  unfold Spec.acceptedOn
  rw [List.filterMap_eq_nil_iff]
  intro ev hev
  obtain ⟨s, e', cb, rfl⟩ := h ev hev
  rfl

section
variable [Arith]

theorem accept_open (ep : Epic) (k : Tick) :
    ((ep.accept k).1.marketOpen = true) ↔ Spec.Open ep k.dt.wall := by
  have h : ∀ x : Epic, x.isMarketOpen = true ↔ Spec.Open x x.lastTick.dt.wall := by
    intro x
    unfold Epic.isMarketOpen Epic.inMarketHours Spec.Open Spec.InSession
    have hd : dayUs = 86400000000 := by decide
    have hw : weekdayOf x.lastTick.dt.wall = (x.lastTick.dt.wall / 86400000000 - 1) % 7 := by
      unfold weekdayOf ordOf; rw [hd]; omega
    rw [hw]
    unfold timeOf ordOf
    rw [hd]
    split_ifs with h1 h2 h3 h4 h5 h6 h7 <;> simp_all
  exact h { ep with lastTick := k }

theorem localTick_eq (z : Zone) (t : Tick) : ({ t with dt := t.dt.to z } : Tick) = Spec.localTick z t := rfl

/-- What holds of an epic whose accepted ticks are `A`. -/
structure EpicInv (ep : Epic) (A : List Tick) : Prop where
  empty : A = [] → ep.lastTick = Tick.epoch ∧ ep.marketOpen = false
  last : ∀ t, A.getLast? = some t → ep.lastTick = t ∧ (ep.marketOpen = true ↔ Spec.Open ep t.dt.wall)
  conv : ∀ t ∈ A, t = Spec.localTick ep.zone t
  sorted : A.Pairwise (fun a b => a.dt.wall ≤ b.dt.wall)

theorem EpicInv.same {ep ep' : Epic} {A : List Tick} (h : EpicInv ep A) (hs : SameClock ep' ep) :
    EpicInv ep' A := by
  refine ⟨fun hA => ?_, fun t ht => ?_, fun t ht => ?_, h.sorted⟩
  · rw [hs.last, hs.flag]; exact h.empty hA
  · unfold Spec.Open
    rw [hs.last, hs.flag, hs.opening, hs.closing, hs.days, hs.off]; exact h.last t ht
  · rw [hs.zone]; exact h.conv t ht

theorem EpicInv.accept {ep : Epic} {A : List Tick} (h : EpicInv ep A) (k : Tick)
    (hacc : (k.dt.to ep.zone).lt ep.lastTick.dt = false) :
    EpicInv (ep.accept { k with dt := k.dt.to ep.zone }).1 (A ++ [{ k with dt := k.dt.to ep.zone }]) := by
  set k' : Tick := { k with dt := k.dt.to ep.zone } with hk'
  refine ⟨by simp, fun t ht => ?_, fun t ht => ?_, ?_⟩
  · rw [List.getLast?_append, List.getLast?_singleton, Option.some_or] at ht
    injection ht with ht; subst ht
    exact ⟨rfl, accept_open ep _⟩
  · show t = Spec.localTick ep.zone t
    rcases List.mem_append.mp ht with ht | ht
    · exact h.conv t ht
    · rw [List.mem_singleton.mp ht]; rfl
  · rw [List.pairwise_append]
    refine ⟨h.sorted, by simp, ?_⟩
    intro a ha b hb
    rw [List.mem_singleton.mp hb]
    have hne : A ≠ [] := List.ne_nil_of_mem ha
    have hl := h.last _ (List.getLast?_eq_getLast_of_ne_nil hne)
    have hc := h.conv _ (List.getLast_mem hne)
    have hle : a.dt.wall ≤ ep.lastTick.dt.wall := by
      rw [hl.1]
      rcases List.eq_nil_or_concat' A with rfl | ⟨B, x, rfl⟩
      · exact absurd rfl hne
      · rw [List.getLast_concat]
        rcases List.mem_append.mp ha with ha | ha
        · exact (List.pairwise_append.mp h.sorted).2.2 a ha x (by simp)
        · rw [List.mem_singleton.mp ha]
    have htz : ep.lastTick.dt.tz = ep.zone.id := by
      rw [hl.1, hc]; rfl
    have : ¬ (k'.dt.wall < ep.lastTick.dt.wall) := by
      unfold DT.lt at hacc
      have e1 : (k.dt.to ep.zone).tz = ep.lastTick.dt.tz := by rw [htz]; rfl
      rw [if_pos e1] at hacc
      simpa using hacc
    omega

/-- The epics a world starts with. -/
theorem Init.epicInv {w : World} (h : w.Init) (e : ℕ) (ep : Epic) (hep : w.epics[e]? = some ep) :
    EpicInv ep (Spec.acceptedOn e w.log) := by
  obtain ⟨ref, z, o, c, td, hd, p, -, rfl⟩ := h.epics ep (List.mem_of_getElem? hep)
  rw [h.log]
  exact ⟨fun _ => ⟨rfl, rfl⟩, by simp [Spec.acceptedOn], by simp [Spec.acceptedOn],
    by simp [Spec.acceptedOn]⟩

/-- Effect of a tick command on the accepted ticks and the epics. -/
theorem tick_effect (env : Env) (w : World) (e : ℕ) (k : Tick) :
    ((w.exec env (.tick e k)).1 = w ∧ ∀ ep, w.epics[e]? = some ep → (k.dt.to ep.zone).lt ep.lastTick.dt = true) ∨
    ∃ ep, w.epics[e]? = some ep ∧ (k.dt.to ep.zone).lt ep.lastTick.dt = false ∧
      (w.exec env (.tick e k)).1.epics = w.epics.set e (ep.accept { k with dt := k.dt.to ep.zone }).1 ∧
      ∀ e', Spec.acceptedOn e' (w.exec env (.tick e k)).1.log = Spec.acceptedOn e' w.log ++
        (if e = e' then [{ k with dt := k.dt.to ep.zone }] else []) := by
  rcases hep : w.epics[e]? with _ | ep
  · left
    refine ⟨?_, by simp⟩
    simp only [World.exec, World.onNewTick, hep]
  · rcases hr : (k.dt.to ep.zone).lt ep.lastTick.dt with _ | _
    · right
      obtain ⟨h1, L, h2, h3⟩ := onNewTick_effect env w e k ep hep hr
      refine ⟨ep, rfl, hr, h1, fun e' => ?_⟩
      have h2' : (w.exec env (.tick e k)).1.log = _ := h2
      rw [h2', acceptedOn_append, List.append_cancel_left_eq, ← List.singleton_append,
        acceptedOn_append, acceptedOn_notify e' L (fun ev hev => by
          obtain ⟨s, -, cb, rfl⟩ := h3 ev hev; exact ⟨s, e, cb, rfl⟩), List.append_nil]
      unfold Spec.acceptedOn
      by_cases he : e = e'
      · simp [he]
      · simp [he]
    · left
      refine ⟨?_, fun ep' h' => by injection h' with h'; rw [← h']; exact hr⟩
      simp only [World.exec, onNewTick_rejected env w e k ep hep hr]

theorem exec_epicInv (env : Env) (w : World) (c : Cmd)
    (hi : ∀ e ep, w.epics[e]? = some ep → EpicInv ep (Spec.acceptedOn e w.log)) :
    ∀ e ep, (w.exec env c).1.epics[e]? = some ep → EpicInv ep (Spec.acceptedOn e (w.exec env c).1.log) := by
  intro e ep' hep'
  by_cases hc : ∀ e t, c ≠ .tick e t
  · obtain ⟨h1, h2, h3⟩ := exec_other env w c hc
    have hlt := getElem?_lt hep'
    rw [h2] at hlt
    obtain ⟨ep'', g1, g2⟩ := h3 e _ (List.getElem?_eq_getElem hlt)
    rw [hep'] at g1; injection g1 with g1; subst g1
    rw [h1]
    exact (hi e _ (List.getElem?_eq_getElem hlt)).same g2
  · push Not at hc
    obtain ⟨e0, k, rfl⟩ := hc
    rcases tick_effect env w e0 k with ⟨h, -⟩ | ⟨ep, hep, hacc, h1, h2⟩
    · rw [h] at hep' ⊢; exact hi e ep' hep'
    · rw [h1, List.getElem?_set] at hep'
      rw [h2 e]
      by_cases he : e0 = e
      · subst he
        rw [if_pos rfl, if_pos (getElem?_lt hep)] at hep'
        injection hep' with hep'; subst hep'
        rw [if_pos rfl]
        exact (hi e0 ep hep).accept k hacc
      · rw [if_neg he] at hep'
        rw [if_neg he, List.append_nil]
        exact hi e ep' hep'

theorem runCmds_append (env : Env) (w : World) (l l' : List Cmd) :
    w.runCmds env (l ++ l') = (w.runCmds env l).runCmds env l' := by
  unfold World.runCmds; rw [List.foldl_append]

theorem runCmds_cons (env : Env) (w : World) (c : Cmd) (l : List Cmd) :
    w.runCmds env (c :: l) = (w.exec env c).1.runCmds env l := rfl

theorem runCmds_epicInv (env : Env) (l : List Cmd) (w : World)
    (hi : ∀ e ep, w.epics[e]? = some ep → EpicInv ep (Spec.acceptedOn e w.log)) :
    ∀ e ep, (w.runCmds env l).epics[e]? = some ep → EpicInv ep (Spec.acceptedOn e (w.runCmds env l).log) := by
  induction l generalizing w with
  | nil => exact hi
  | cons c l ih =>
    rw [runCmds_cons]
    exact ih _ (exec_epicInv env w c hi)

theorem reachable_epicInv {env : Env} {w : World} (h : Reachable env w) (e : ℕ) (ep : Epic)
    (hep : w.epics[e]? = some ep) : EpicInv ep (Spec.acceptedOn e w.log) := by
  obtain ⟨w0, h0, l, rfl⟩ := h
  exact runCmds_epicInv env l w0 (fun e ep => Init.epicInv h0 e ep) e ep hep

end
end Estrade
