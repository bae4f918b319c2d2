import Verif.Free
import Verif.Props.Reentrant
import Verif.Props.Settings

/-!
# C97: callbacks that do all the main program may do, the assignment of settings included
-/

set_option linter.style.haveILetI false
set_option linter.unusedSectionVars false
set_option autoImplicit false

namespace Estrade

/-- Spec: every command the code may issue satisfies `Q`. -/
def FProg.All (Q : SetCmd → Prop) : FProg → Prop
  | .done => True
  | .raise _ => True
  | .act c k => Q c ∧ ∀ w err, (k w err).All Q

/-- Spec: every command issued by a callback satisfies `Q`. -/
def FEnv.All (env : FEnv) (Q : SetCmd → Prop) : Prop := ∀ s cb e w, (env s cb e w).All Q

/-- Spec: a command that feeds no tick. -/
def Spec.NoTick (c : SetCmd) : Prop := ∀ e k, c ≠ .cmd (.tick e k)

/-- Spec: a command whose quantities are not negative. -/
def Spec.SetValid : SetCmd → Prop
  | .cmd c => c.Valid
  | .assign _ _ => True

section
variable [Arith]

/-! ## Every run is a flat run -/

theorem FProg.all_true (p : FProg) : p.All (fun _ => True) := by
  induction p with
  | done => trivial
  | raise e => trivial
  | act c k ih => exact ⟨trivial, fun w err => ih w err⟩

theorem core_assign (w : World) (e : ℕ) (s : Setting) : (w.core.assign e s).1 = (w.assign e s).1.core := by
  unfold World.assign
  show (match w.epics[e]? with | none => _ | some ep => _ : World × Option PyErr).1 = _
  rcases w.epics[e]? with _ | ep
  · rfl
  · cases s with
    | provider p =>
      show (if p < w.providers.length then _ else _ : World × Option PyErr).1 = _
      simp only
      split_ifs <;> rfl
    | _ => rfl

theorem execSet_congr {u v : World} (h : u.core = v.core) (c : SetCmd) :
    (u.execSet Spec.idle c).1.core = (v.execSet Spec.idle c).1.core := by
  cases c with
  | cmd c => exact exec_congr h c
  | assign e s =>
    show (u.assign e s).1.core = (v.assign e s).1.core
    rw [← core_assign, ← core_assign, h]

theorem runSets_congr {u v : World} (h : u.core = v.core) (l : List SetCmd) :
    (u.runSets Spec.idle l).core = (v.runSets Spec.idle l).core := by
  induction l generalizing u v with
  | nil => exact h
  | cons c l ih => exact ih (execSet_congr h c)

/-- From `w` one gets to `w'` by a list of commands that satisfy `Q`, callbacks doing nothing. -/
def LinedUp (Q : SetCmd → Prop) (w w' : World) : Prop := ∃ l, (∀ c ∈ l, Q c) ∧ w'.core = (w.runSets Spec.idle l).core

theorem LinedUp.same {Q : SetCmd → Prop} {w w' : World} (h : w'.core = w.core) : LinedUp Q w w' := ⟨[], by simp, h⟩

theorem LinedUp.trans {Q : SetCmd → Prop} {u v w : World} (h1 : LinedUp Q u v) (h2 : LinedUp Q v w) : LinedUp Q u w := by
  obtain ⟨l1, a1, b1⟩ := h1
  obtain ⟨l2, a2, b2⟩ := h2
  refine ⟨l1 ++ l2, fun c hc => (List.mem_append.mp hc).elim (a1 c) (a2 c), ?_⟩
  rw [b2, runSets_congr b1, runSets_append]

theorem LinedUp.cmd {Q : SetCmd → Prop} {w : World} {c : SetCmd} (hc : Q c) : LinedUp Q w (w.execSet Spec.idle c).1 :=
  ⟨[c], by simpa using hc, rfl⟩

theorem LinedUp.andThen {Q : SetCmd → Prop} {w : World} {r : World × Option PyErr} {f : World → World × Option PyErr}
    (h1 : LinedUp Q w r.1) (h2 : ∀ u, LinedUp Q u (f u).1) : LinedUp Q w (andThen r f).1 := by
  obtain ⟨u, err⟩ := r
  cases err with
  | none => exact h1.trans (h2 u)
  | some e => exact h1

section
variable {Q : SetCmd → Prop} {tick : TickFn} (ht : ∀ w e k, Q (.cmd (.tick e k)) → LinedUp Q w (tick w e k).1) {env : FEnv}
  (henv : env.All Q)
include ht

theorem fexec_flat (w : World) (c : SetCmd) (hc : Q c) : LinedUp Q w (w.fexec tick c).1 := by
  cases c with
  | assign e s => exact LinedUp.cmd (c := .assign e s) hc
  | cmd c =>
    cases c with
    | tick e k => exact ht w e k hc
    | op o => exact LinedUp.cmd (c := .cmd (.op o)) hc
    | addFrameSet e ref fs => exact LinedUp.cmd (c := .cmd (.addFrameSet e ref fs)) hc
    | addStrategy e s => exact LinedUp.cmd (c := .cmd (.addStrategy e s)) hc
    | addIndicator e ref ind => exact LinedUp.cmd (c := .cmd (.addIndicator e ref ind)) hc

theorem frunProg_flat (p : FProg) (hp : p.All Q) (w : World) : LinedUp Q w (p.run tick w).1 := by
  induction p generalizing w with
  | done => exact .same rfl
  | raise e => exact .same rfl
  | act c k ih => exact (fexec_flat ht w c hp.1).trans (ih _ _ (hp.2 _ _) _)

include henv

theorem fcall_flat (w : World) (s : ℕ) (cb : Cb) (e : ℕ) : LinedUp Q w (w.fcall tick env s cb e).1 :=
  (LinedUp.same (core_notify w s e cb)).trans (frunProg_flat ht _ (henv s cb e _) _)

theorem fcallIf_flat (c : Bool) (w : World) (s : ℕ) (cb : Cb) (e : ℕ) : LinedUp Q w (w.fcallIf tick env c s cb e).1 := by
  unfold World.fcallIf
  split_ifs
  · exact fcall_flat ht henv w s cb e
  · exact .same rfl

theorem fexecStrategy_flat (w : World) (e s : ℕ) (b : Bool) : LinedUp Q w (w.fexecStrategy tick env e s b).1 := by
  unfold World.fexecStrategy
  rcases w.epics[e]? with _ | ep
  · exact .same rfl
  · rcases hs : w.strategies[s]? with _ | st
    · exact .same rfl
    · simp only
      have h0 := core_set_awake w s st _ hs (isActive_awake st ep.lastTick.dt)
      split_ifs
      · refine (LinedUp.same h0).trans ?_
        unfold World.fnotifyAll
        refine LinedUp.andThen ?_ fun u => LinedUp.andThen (fcallIf_flat ht henv _ _ _ _ _) fun u => fcall_flat ht henv _ _ _ _
        split_ifs <;> exact fcallIf_flat ht henv _ _ _ _ _
      · exact .same h0

theorem fexecStrategies_flat (e : ℕ) (b : Bool) (n : ℕ) (l : List ℕ) :
    ∀ w : World, LinedUp Q w (fexecStrategies tick env e b n w l).1 := by
  induction l with
  | nil => intro w; unfold fexecStrategies; split_ifs <;> exact .same rfl
  | cons s rest ih =>
    intro w
    unfold fexecStrategies
    split_ifs
    · exact LinedUp.andThen (fexecStrategy_flat ht henv w e s b) ih
    · exact .same rfl

end

theorem ftick_split {Q : SetCmd → Prop} {env : FEnv} {d : ℕ}
    (ht : ∀ w e k, Q (.cmd (.tick e k)) → LinedUp Q w (World.ftick env d w e k).1) (henv : env.All Q) (w : World) (e : ℕ)
    (k : Tick) : LinedUp Q (w.execSet Spec.idle (.cmd (.tick e k))).1 (World.ftick env (d + 1) w e k).1 := by
  have h1 : LinedUp Q (w.execSet Spec.idle (.cmd (.tick e k))).1 (w.take e k) := .same (idle_tick w e k).symm
  refine h1.trans ?_
  unfold World.ftick World.take
  rcases w.epics[e]? with _ | ep
  · exact .same rfl
  · simp only
    split_ifs
    · exact .same rfl
    · rcases (ep.accept { k with dt := k.dt.to ep.zone }).2 with _ | err
      · exact fexecStrategies_flat ht henv _ _ _ _ _
      · exact .same rfl

theorem ftick_flat {Q : SetCmd → Prop} {env : FEnv} (henv : env.All Q) (d : ℕ) :
    ∀ w e k, Q (.cmd (.tick e k)) → LinedUp Q w (World.ftick env d w e k).1 := by
  induction d with
  | zero => intro w e k _; exact .same rfl
  | succ d ih => intro w e k hk; exact (LinedUp.cmd hk).trans (ftick_split ih henv w e k)

theorem fexec_split {Q : SetCmd → Prop} {env : FEnv} (henv : env.All Q) (d : ℕ) (w : World) (c : SetCmd) :
    LinedUp Q (w.execSet Spec.idle c).1 (w.fexec (World.ftick env (d + 1)) c).1 := by
  cases c with
  | assign e s => exact .same rfl
  | cmd c =>
    cases c with
    | tick e k => exact ftick_split (ftick_flat henv d) henv w e k
    | op o => exact .same rfl
    | addFrameSet e ref fs => exact .same rfl
    | addStrategy e s => exact .same rfl
    | addIndicator e ref ind => exact .same rfl

/-! ## The theorems -/

/-- C97: a run whose callbacks feed ticks, register objects and assign settings has the outcome (up to `paused_until`) of the
flat program that issues the same commands one after the other, callbacks doing nothing. -/
theorem C97_flat {Q : SetCmd → Prop} {env : FEnv} (henv : env.All Q) (d : ℕ) (w : World) (l : List SetCmd)
    (hl : ∀ c ∈ l, Q c) :
    ∃ l', l.Sublist l' ∧ (∀ c ∈ l', Q c) ∧ Spec.SameBooks (w.frun env (d + 1) l) (w.runSets Spec.idle l') := by
  suffices h : ∃ l', l.Sublist l' ∧ (∀ c ∈ l', Q c) ∧ (w.frun env (d + 1) l).core = (w.runSets Spec.idle l').core by
    obtain ⟨l', h1, h2, h3⟩ := h
    exact ⟨l', h1, h2, core_sameBooks h3⟩
  induction l generalizing w with
  | nil => exact ⟨[], .slnil, by simp, rfl⟩
  | cons c l ih =>
    obtain ⟨l1, a1, b1⟩ := fexec_split henv d w c
    obtain ⟨l2, a2, b2, c2⟩ := ih ((w.fexec (World.ftick env (d + 1)) c).1) (fun x hx => hl x (by simp [hx]))
    refine ⟨c :: (l1 ++ l2), (a2.trans (List.sublist_append_right l1 l2)).cons_cons c, ?_, ?_⟩
    · intro x hx
      rcases List.mem_cons.mp hx with rfl | hx
      · exact hl _ (by simp)
      · exact (List.mem_append.mp hx).elim (a1 x) (b2 x)
    · show ((w.fexec (World.ftick env (d + 1)) c).1.frun env (d + 1) l).core = _
      rw [c2, runSets_congr b1, runSets_cons, runSets_append]

/-! ### Settings and market state -/

/-- The last accepted tick of a flat run. -/
theorem last_accepted (env : Env) (w : World) (e : ℕ) (ep : Epic) (hep : w.epics[e]? = some ep) (l : List SetCmd) :
    Spec.acceptedOn e (w.runSets env l).log = Spec.acceptedOn e w.log ∨
    ∃ l₁ k l₂, l = l₁ ++ .cmd (.tick e k) :: l₂ ∧
      Spec.acceptedOn e (w.runSets env (l₁ ++ [.cmd (.tick e k)])).log =
        Spec.acceptedOn e (w.runSets env l₁).log ++ [Spec.localTick ep.zone k] ∧
      Spec.acceptedOn e (w.runSets env l).log = Spec.acceptedOn e (w.runSets env (l₁ ++ [.cmd (.tick e k)])).log := by
  induction l using List.reverseRecOn with
  | nil => exact .inl rfl
  | append_singleton l c ih =>
    have keep : Spec.acceptedOn e (w.runSets env (l ++ [c])).log = Spec.acceptedOn e (w.runSets env l).log →
        Spec.acceptedOn e (w.runSets env (l ++ [c])).log = Spec.acceptedOn e w.log ∨
        ∃ l₁ k l₂, l ++ [c] = l₁ ++ .cmd (.tick e k) :: l₂ ∧
          Spec.acceptedOn e (w.runSets env (l₁ ++ [.cmd (.tick e k)])).log =
            Spec.acceptedOn e (w.runSets env l₁).log ++ [Spec.localTick ep.zone k] ∧
          Spec.acceptedOn e (w.runSets env (l ++ [c])).log =
            Spec.acceptedOn e (w.runSets env (l₁ ++ [.cmd (.tick e k)])).log := by
      intro h
      rcases ih with ih | ⟨l₁, k, l₂, rfl, h2, h3⟩
      · exact .inl (h.trans ih)
      · exact .inr ⟨l₁, k, l₂ ++ [c], by simp, h2, h.trans h3⟩
    have hone : w.runSets env (l ++ [c]) = ((w.runSets env l).execSet env c).1 := by rw [runSets_append]; rfl
    cases c with
    | assign e' s =>
      refine keep ?_
      rw [hone]
      show Spec.acceptedOn e ((w.runSets env l).assign e' s).1.log = _
      rw [(assign_rest _ e' s).1]
    | cmd c =>
      by_cases hc : ∃ e t, c = .tick e t
      · obtain ⟨e', t, rfl⟩ := hc
        rcases tick_effect env (w.runSets env l) e' t with ⟨h1, -⟩ | ⟨x, h1, -, -, h3⟩
        · refine keep ?_
          rw [hone]; show Spec.acceptedOn e ((w.runSets env l).exec env (.tick e' t)).1.log = _
          rw [h1]
        · have h4 : Spec.acceptedOn e (w.runSets env (l ++ [.cmd (.tick e' t)])).log =
              Spec.acceptedOn e (w.runSets env l).log ++ if e' = e then [{ t with dt := t.dt.to x.zone }] else [] := by
            rw [hone]; exact h3 e
          by_cases he : e' = e
          · subst he
            right
            refine ⟨l, t, [], rfl, ?_, rfl⟩
            rw [h4, if_pos rfl]
            obtain ⟨y, h5, h6, -⟩ := C88_in_force env l w e' ep hep
            rw [h1] at h5; injection h5 with h5; subst h5
            rw [← h6]; rfl
          · refine keep ?_
            rw [h4, if_neg he, List.append_nil]
      · push Not at hc
        refine keep ?_
        rw [hone]; show Spec.acceptedOn e ((w.runSets env l).exec env c).1.log = _
        rw [(exec_other env _ c hc).1]

/-- C97, settings and market state: the schedule of an epic is the one last assigned, by whomever; the market is open just if the
schedule in force when the last accepted tick came says so of that tick. -/
theorem C97_market {env : FEnv} (d : ℕ) (w : World) (hw : w.Init) (l : List SetCmd) :
    ∃ l', l.Sublist l' ∧ Spec.SameBooks (w.frun env (d + 1) l) (w.runSets Spec.idle l') ∧
      ∀ (e : ℕ) (ep : Epic), w.epics[e]? = some ep →
        ∃ ep', (w.frun env (d + 1) l).epics[e]? = some ep' ∧ Spec.scheduleOf ep' = Spec.inForce e (Spec.scheduleOf ep) l' ∧
          ((Spec.acceptedOn e (w.frun env (d + 1) l).log = [] ∧ ep'.marketOpen = false) ∨
            ∃ l₁ k l₂, l' = l₁ ++ .cmd (.tick e k) :: l₂ ∧
              Spec.acceptedOn e (w.frun env (d + 1) l).log =
                Spec.acceptedOn e (w.runSets Spec.idle l₁).log ++ [Spec.localTick ep.zone k] ∧
              (ep'.marketOpen = true ↔
                (Spec.inForce e (Spec.scheduleOf ep) l₁).Open (Spec.localTick ep.zone k).dt.wall)) := by
  obtain ⟨l', h1, -, h2⟩ := C97_flat (Q := fun _ => True) (env := env) (fun _ _ _ _ => FProg.all_true _) d w l
    (fun _ _ => trivial)
  refine ⟨l', h1, h2, fun e ep hep => ?_⟩
  obtain ⟨x, h3, -, h4⟩ := C88_in_force Spec.idle l' w e ep hep
  have hlog : Spec.acceptedOn e (w.frun env (d + 1) l).log = Spec.acceptedOn e (w.runSets Spec.idle l').log := by
    rw [acceptedOn_ticks, h2.ticks, ← acceptedOn_ticks]
  have hmo : (w.runSets Spec.idle l').marketOpen e = x.marketOpen := by unfold World.marketOpen; rw [h3]
  have hempty : Spec.acceptedOn e w.log = [] := by rw [hw.log]; rfl
  refine ⟨x, by rw [h2.epics]; exact h3, h4, ?_⟩
  rcases last_accepted Spec.idle w e ep hep l' with h5 | ⟨l₁, k, l₂, rfl, h5, h6⟩
  · left
    have h5' := h5.trans hempty
    exact ⟨hlog.trans h5', hmo ▸ C88_market_start Spec.idle w hw e l' h5'⟩
  · right
    refine ⟨l₁, k, l₂, rfl, by rw [hlog, h6, h5], ?_⟩
    rw [← hmo, C88_market_open Spec.idle w e ep hep l₁ k l₂ h5 h6, decide_eq_true_iff]

/-! ### Callbacks of one tick -/

/-- No log entry, no change of a market state. -/
structure StillIn (w w' : World) : Prop where
  log : w'.log = w.log
  market : ∀ e, w'.marketOpen e = w.marketOpen e

theorem StillIn.trans {u v w : World} (h1 : StillIn u v) (h2 : StillIn v w) : StillIn u w :=
  ⟨h2.log.trans h1.log, fun e => (h2.market e).trans (h1.market e)⟩

theorem fexec_still (tick : TickFn) (w : World) (c : SetCmd) (hc : Spec.NoTick c) : StillIn w (w.fexec tick c).1 := by
  have h1 : w.fexec tick c = w.execSet Spec.idle c := by
    cases c with
    | assign e s => rfl
    | cmd c =>
      cases c with
      | tick e k => exact absurd rfl (hc e k)
      | _ => rfl
  have h2 : (w.execSet Spec.idle c).1.log = w.log := by
    cases c with
    | assign e s => exact (assign_rest w e s).1
    | cmd c => exact (exec_other Spec.idle w c (fun e k h => hc e k (by rw [h]))).1
  rw [h1]
  refine ⟨h2, fun e => ?_⟩
  obtain ⟨L, h3, h4⟩ := execSet_accepted Spec.idle w c e
  rw [h2] at h3
  exact h4 (List.self_eq_append_right.mp h3)

theorem frunProg_still (tick : TickFn) (p : FProg) (hp : p.All Spec.NoTick) (w : World) : StillIn w (p.run tick w).1 := by
  induction p generalizing w with
  | done => exact ⟨rfl, fun _ => rfl⟩
  | raise e => exact ⟨rfl, fun _ => rfl⟩
  | act c k ih => exact (fexec_still tick w c hp.1).trans (ih _ _ (hp.2 _ _) _)

section
variable {tick : TickFn} {env : FEnv} (henv : env.All Spec.NoTick)
include henv

theorem fcall_log (w : World) (s : ℕ) (cb : Cb) (e : ℕ) :
    (w.fcall tick env s cb e).1.log = w.log ++ [.notify s e cb] ∧
    ∀ e', (w.fcall tick env s cb e).1.marketOpen e' = w.marketOpen e' := by
  have := frunProg_still tick (env s cb e { w with log := w.log ++ [.notify s e cb] }) (henv s cb e _)
    { w with log := w.log ++ [.notify s e cb] }
  exact ⟨this.log, this.market⟩

theorem fcallIf_log (c : Bool) (w : World) (s : ℕ) (cb : Cb) (e : ℕ) :
    (w.fcallIf tick env c s cb e).1.log = w.log ++ (if c then [.notify s e cb] else []) ∧
    ∀ e', (w.fcallIf tick env c s cb e).1.marketOpen e' = w.marketOpen e' := by
  unfold World.fcallIf
  split_ifs
  · exact fcall_log henv w s cb e
  · exact ⟨by simp, fun _ => rfl⟩

theorem fnotifyAll_log (w : World) (e s : ℕ) (b : Bool) :
    (∀ e', (w.fnotifyAll tick env e s b).1.marketOpen e' = w.marketOpen e') ∧
    ∃ L, (w.fnotifyAll tick env e s b).1.log = w.log ++ L ∧ L <+: notifyBlock s e b (w.marketOpen e) ∧
      ((w.fnotifyAll tick env e s b).2 = none → L = notifyBlock s e b (w.marketOpen e)) := by
  unfold World.fnotifyAll
  set m := w.marketOpen e with hm
  set L1 : List Event := if b then (if !m then [.notify s e .marketClose] else []) else
    (if m then [.notify s e .marketOpen] else []) with hL1
  have hblock : notifyBlock s e b m = L1 ++ (if m then [.notify s e .everyTickOpen] else []) ++ [.notify s e .everyTick] := by
    rw [hL1]; unfold notifyBlock
    cases b <;> cases m <;> rfl
  rw [hblock]
  set r1 := (if b then w.fcallIf tick env (!m) s .marketClose e else w.fcallIf tick env m s .marketOpen e) with hr1
  have l1 : r1.1.log = w.log ++ L1 ∧ ∀ e', r1.1.marketOpen e' = w.marketOpen e' := by
    rw [hr1, hL1]
    cases b
    · exact fcallIf_log henv m w s .marketOpen e
    · exact fcallIf_log henv (!m) w s .marketClose e
  rcases andThen_cases r1 _ with ⟨-, h⟩ | ⟨hne, h⟩
  · rw [h, l1.2 e, ← hm]
    clear h
    set r2 := r1.1.fcallIf tick env m s .everyTickOpen e with hr2
    have l2 := fcallIf_log (tick := tick) henv m r1.1 s .everyTickOpen e
    rw [← hr2] at l2
    rcases andThen_cases r2 (fun w => w.fcall tick env s .everyTick e) with ⟨-, h⟩ | ⟨hne, h⟩
    · rw [h]
      have l3 := fcall_log (tick := tick) henv r2.1 s .everyTick e
      refine ⟨fun e' => (l3.2 e').trans ((l2.2 e').trans (l1.2 e')), _, ?_, List.prefix_refl _, fun _ => rfl⟩
      rw [l3.1, l2.1, l1.1]; simp only [List.append_assoc]
    · rw [h]
      refine ⟨fun e' => (l2.2 e').trans (l1.2 e'), _, ?_, List.prefix_append _ _, fun hn => absurd hn hne⟩
      rw [l2.1, l1.1, List.append_assoc]
  · rw [h]
    refine ⟨l1.2, L1, l1.1, ?_, fun hn => absurd hn hne⟩
    rw [List.append_assoc]; exact List.prefix_append _ _

theorem fexecStrategy_log (w : World) (e s : ℕ) (b : Bool) :
    (∀ e', (w.fexecStrategy tick env e s b).1.marketOpen e' = w.marketOpen e') ∧
    ∃ (act : Bool) (L : List Event), (w.fexecStrategy tick env e s b).1.log = w.log ++ L ∧
      L <+: (if act then notifyBlock s e b (w.marketOpen e) else []) ∧
      ((w.fexecStrategy tick env e s b).2 = none → L = if act then notifyBlock s e b (w.marketOpen e) else []) := by
  unfold World.fexecStrategy
  rcases hep : w.epics[e]? with _ | ep
  · exact ⟨fun _ => rfl, false, [], by simp, List.nil_prefix, fun _ => rfl⟩
  · rcases hs : w.strategies[s]? with _ | st
    · exact ⟨fun _ => rfl, false, [], by simp, List.nil_prefix, fun _ => rfl⟩
    · simp only
      split_ifs
      · obtain ⟨h1, L, h2, h3, h4⟩ := fnotifyAll_log (tick := tick) henv
          { w with strategies := w.strategies.set s (st.isActive ep.lastTick.dt).2 } e s b
        exact ⟨h1, true, L, h2, h3, h4⟩
      · exact ⟨fun _ => rfl, false, [], by simp, List.nil_prefix, fun _ => rfl⟩

theorem fexecStrategies_log (e : ℕ) (b : Bool) (n : ℕ) (l : List ℕ) : ∀ w : World,
    ∃ (acts : List Bool) (L : List Event), acts.length = l.length ∧
      (fexecStrategies tick env e b n w l).1.log = w.log ++ L ∧
      L <+: Spec.told e b (w.marketOpen e) (l.zip acts) ∧
      ((fexecStrategies tick env e b n w l).2 = none → L = Spec.told e b (w.marketOpen e) (l.zip acts)) := by
  induction l with
  | nil =>
    intro w
    unfold fexecStrategies
    split_ifs
    · exact ⟨[], [], rfl, by simp, List.nil_prefix, fun _ => rfl⟩
    · exact ⟨[], [], rfl, by simp, List.nil_prefix, fun _ => rfl⟩
  | cons s rest ih =>
    intro w
    unfold fexecStrategies
    split_ifs
    · obtain ⟨m1, act, L1, h1, h2, h3⟩ := fexecStrategy_log (tick := tick) henv w e s b
      have hcons : ∀ acts : List Bool, Spec.told e b (w.marketOpen e) ((s :: rest).zip (act :: acts)) =
          (if act then notifyBlock s e b (w.marketOpen e) else []) ++ Spec.told e b (w.marketOpen e) (rest.zip acts) := by
        intro acts
        rw [← told_eq, ← told_eq]; rfl
      rcases andThen_cases (w.fexecStrategy tick env e s b) (fun w => fexecStrategies tick env e b n w rest) with
        ⟨hn, h⟩ | ⟨hne, h⟩
      · rw [h]
        obtain ⟨acts, L, a1, a2, a3, a4⟩ := ih (w.fexecStrategy tick env e s b).1
        rw [m1 e] at a3 a4
        refine ⟨act :: acts, L1 ++ L, by simp [a1], by rw [a2, h1, List.append_assoc], ?_, fun hok => ?_⟩
        · rw [hcons, h3 hn]
          exact (List.prefix_append_right_inj _).mpr a3
        · rw [hcons, h3 hn, a4 hok]
      · rw [h]
        refine ⟨act :: rest.map (fun _ => false), L1, by simp, h1, ?_, fun hok => absurd hok hne⟩
        rw [hcons]
        exact h2.trans (List.prefix_append _ _)
    · exact ⟨(s :: rest).map (fun _ => false), [], by simp, by simp, List.nil_prefix, fun h => by cases h⟩

end

/-- C97, callbacks of one tick: if callbacks feed no ticks, then whatever settings they assign, also of the epic whose tick is
being handled, every strategy is called as the settings in force when the tick came require: the market state does not change
until the next tick. -/
theorem C97_told {env : FEnv} (henv : env.All Spec.NoTick) (d : ℕ) (w : World) (e : ℕ) (ep : Epic)
    (hep : w.epics[e]? = some ep) (k : Tick) :
    ((World.ftick env (d + 1) w e k).1 = w ∧ (World.ftick env (d + 1) w e k).2 ≠ none) ∨
    ∃ (acts : List Bool) (L : List Event), acts.length = ep.strategies.length ∧
      (World.ftick env (d + 1) w e k).1.log = w.log ++ .accepted e (Spec.localTick ep.zone k) :: L ∧
      L <+: Spec.told e ep.marketOpen (decide ((Spec.scheduleOf ep).Open (Spec.localTick ep.zone k).dt.wall))
        ((ep.strategies.map Prod.snd).zip acts) ∧
      ((World.ftick env (d + 1) w e k).2 = none →
        L = Spec.told e ep.marketOpen (decide ((Spec.scheduleOf ep).Open (Spec.localTick ep.zone k).dt.wall))
          ((ep.strategies.map Prod.snd).zip acts)) := by
  unfold World.ftick
  rw [hep]
  simp only
  split_ifs
  · exact .inl ⟨rfl, by simp⟩
  · right
    have hmo : ∀ w1 : World, w1.epics = w.epics.set e (ep.accept { k with dt := k.dt.to ep.zone }).1 → w1.marketOpen e =
        decide ((Spec.scheduleOf ep).Open (Spec.localTick ep.zone k).dt.wall) :=
      fun w1 h => marketOpen_accept (k := Spec.localTick ep.zone k) hep h
    rcases hr : (ep.accept { k with dt := k.dt.to ep.zone }).2 with _ | err
    · simp only
      set w1 : World := { w with
        epics := w.epics.set e (ep.accept { k with dt := k.dt.to ep.zone }).1,
        log := w.log ++ [.accepted e { k with dt := k.dt.to ep.zone }] } with hw1
      obtain ⟨e1, -, -, e2⟩ := updateOpenTrades_rest w1 ep.provider { k with dt := k.dt.to ep.zone }
      obtain ⟨acts, L, a1, a2, a3, a4⟩ := fexecStrategies_log (tick := World.ftick env d) henv e ep.marketOpen
        ep.strategies.length (ep.strategies.map Prod.snd)
        (w1.updateOpenTrades ep.provider { k with dt := k.dt.to ep.zone })
      rw [hmo _ (by rw [e1])] at a3 a4
      refine ⟨acts, L, by rw [a1, List.length_map], ?_, a3, a4⟩
      rw [a2, e2, hw1]
      show w.log ++ [_] ++ L = _
      rw [List.append_assoc]; rfl
    · refine ⟨(ep.strategies.map Prod.snd).map (fun _ => false), [], by simp, by rfl, List.nil_prefix, fun h => by cases h⟩

/-! ### Trades -/

/-- What holds at the start, and is kept by primitive steps and by every change of epics that leaves their number, holds after
every run. -/
theorem runSets_inv {V : Prop} {P : World → Prop} (hp : ∀ u v, P u → Prim V u v → P v)
    (hx : ∀ (u v : World), u.trades = v.trades → u.providers = v.providers → u.strategies = v.strategies →
      u.epics.length = v.epics.length → P u → P v)
    (l : List SetCmd) (hv : V → ∀ c ∈ l, Spec.SetValid c) :
    ∀ (w : World), EpicsOk w → P w → EpicsOk (w.runSets Spec.idle l) ∧ P (w.runSets Spec.idle l) := by
  induction l with
  | nil => intro w h1 h2; exact ⟨h1, h2⟩
  | cons c l ih =>
    intro w h1 h2
    rw [runSets_cons]
    have h3 : EpicsOk (w.execSet Spec.idle c).1 ∧ P (w.execSet Spec.idle c).1 := by
      cases c with
      | cmd c =>
        have hs : WSteps V w (w.exec Spec.idle c).1 :=
          exec_steps (env := Spec.idle) (fun _ _ _ _ _ => trivial) w h1 c (fun v => hv v (.cmd c) (by simp))
        refine ⟨WSteps.epicsOk hs h1, WSteps.inv (fun a b ha hb => ?_) hs h2⟩
        cases hb with
        | prim h => exact hp a _ ha h
        | log ev => exact hx a _ rfl rfl rfl rfl ha
        | epics es h => exact hx a _ rfl rfl rfl (by simpa using (congrArg List.length h).symm) ha
      | assign e s =>
        show EpicsOk (w.assign e s).1 ∧ P (w.assign e s).1
        unfold World.assign
        rcases he : w.epics[e]? with _ | ep
        · exact ⟨h1, h2⟩
        · have hset : ∀ x : Epic, x.provider < w.providers.length →
              EpicsOk { w with epics := w.epics.set e x } ∧ P { w with epics := w.epics.set e x } := by
            intro x hlt
            refine ⟨fun y hy => ?_, hx w _ rfl rfl rfl (by simp) h2⟩
            rcases List.mem_or_eq_of_mem_set hy with hy | rfl
            · exact h1 y hy
            · exact hlt
          cases s with
          | provider p =>
            simp only
            split_ifs with hlt
            · exact hset _ hlt
            · exact ⟨h1, h2⟩
          | _ => exact hset _ (h1 ep (List.mem_of_getElem? he))
    exact ih (fun v c hc => hv v c (List.mem_cons_of_mem _ hc)) _ h3.1 h3.2

/-- C97, registration: a trade of positive size is in the list of one provider, once, and of its own strategy, once, and in no
other, even if the provider of its epic is replaced. -/
theorem C97_registered {env : FEnv} (d : ℕ) (w0 : World) (h0 : w0.Init) (l : List SetCmd) (i : ℕ) (t : Trade)
    (ht : (w0.frun env (d + 1) l).trades[i]? = some t) (hq : 0 < t.openQty) :
    (∃ p₀, p₀ < (w0.frun env (d + 1) l).providers.length ∧
      ∀ (p : ℕ) (pr : Provider), (w0.frun env (d + 1) l).providers[p]? = some pr →
        Spec.times i pr.trades = if p = p₀ then 1 else 0) ∧
    ∀ (s : ℕ) (st : Strategy), (w0.frun env (d + 1) l).strategies[s]? = some st →
      Spec.times i st.trades = if t.strategy = some s then 1 else 0 := by
  obtain ⟨l', -, -, h2⟩ := C97_flat (Q := fun _ => True) (env := env) (fun _ _ _ _ => FProg.all_true _) d w0 l
    (fun _ _ => trivial)
  have hb : BookInv (w0.runSets Spec.idle l') := by
    refine (runSets_inv (V := False) (P := BookInv) ?_ ?_ l' (fun v => v.elim) w0 (Init.epicsOk h0)
      (Init.regInv h0).toBookInv).2
    · intro u v hu h
      rcases h.registry with hq | ⟨t, p, hf, hq, rfl⟩ | ⟨t, p, hf, rfl⟩
      · exact hu.quiet hq (by rw [h.epics])
      · exact hu.alloc hf.fitting hq
      · exact hu.opened hf.fitting
    · intro u v e1 e2 e3 e4 hu
      exact hu.quiet ⟨by rw [e2], by rw [e3], by rw [e1], by rw [e1]; exact KeptAll.refl _⟩ e4.symm
  have hst : (w0.frun env (d + 1) l).strategies.map Strategy.trades =
      (w0.runSets Spec.idle l').strategies.map Strategy.trades := by
    have := congrArg (List.map (fun x : String × Dict ℕ × Bool × List ℕ => x.2.2.2)) h2.strategies
    simp only [List.map_map] at this
    exact this
  rw [h2.trades] at ht
  rw [h2.providers]
  obtain ⟨p₀, pr₀, g1, g2⟩ := hb.listed i t ht hq
  constructor
  · refine ⟨p₀, getElem?_lt g1, fun p pr hp => ?_⟩
    rw [times_of_increasing (hb.provInc p pr hp)]
    have : i ∈ pr.trades ↔ p = p₀ := by
      constructor
      · intro hm; exact hb.one i p pr p₀ pr₀ hp hm g1 g2
      · rintro rfl; rw [hp] at g1; injection g1 with g1; subst g1; exact g2
    simp only [this]
  · intro s st hs
    obtain ⟨st', hs', hst'⟩ := map_getElem?_eq hst hs
    rw [← hst', times_of_increasing (hb.stratInc s st' hs')]
    have : i ∈ st'.trades ↔ t.strategy = some s := by
      rw [hb.stratOf i t s st' ht hs']
      exact ⟨fun h => h.1, fun h => ⟨h, p₀, pr₀, g1, g2⟩⟩
    simp only [this]

/-- C97, quantities: if no quantity is negative, a trade is never closed for more than it was opened. -/
theorem C97_quantities {env : FEnv} {d : ℕ} (hv : env.All Spec.SetValid) {w0 : World} (h0 : w0.Init) (l : List SetCmd)
    (hl : ∀ c ∈ l, Spec.SetValid c) :
    ∀ t ∈ (w0.frun env (d + 1) l).trades, (t.closes.map TradeClose.qty).sum ≤ t.openQty := by
  obtain ⟨l', -, h1, h2⟩ := C97_flat hv d w0 l hl
  intro t ht
  rw [h2.trades] at ht
  have := (runSets_inv (V := True) (P := NonNeg) (fun u v hu h => h.nonNeg hu)
    (fun u v e1 _ _ _ hu => by unfold NonNeg at hu ⊢; rw [← e1]; exact hu) l' (fun _ => h1) w0 (Init.epicsOk h0)
    (by unfold NonNeg; rw [h0.trades]; simp)).2 t ht
  unfold Trade.openedQty Trade.closedQty at this
  linarith

/-- C97, frames: with indicators that work at all times, frames and indicators do not depend on the settings: they are those of
the flat program without the assignments. -/
theorem C97_frames {env : FEnv} (henv : env.All Spec.AllHoursCmd) (d : ℕ) (w : World) (hw : w.Init) (l : List SetCmd)
    (hl : ∀ c ∈ l, Spec.AllHoursCmd c) :
    ∃ l', l.Sublist l' ∧ Spec.SameBooks (w.frun env (d + 1) l) (w.runSets Spec.idle l') ∧
      (w.frun env (d + 1) l).epics.map Spec.seen = (w.runCmds Spec.idle (Spec.plainCmds l')).epics.map Spec.seen := by
  obtain ⟨l', h1, h2, h3⟩ := C97_flat henv d w l hl
  exact ⟨l', h1, h3, by rw [h3.epics]; exact C88_frames Spec.idle Spec.idle l' h2 w hw⟩

/-! ### The callbacks of the other models -/

theorem free_prog (tick : TickFn) (p : RProg) (w : World) : p.free.run tick w = p.run tick w := by
  induction p generalizing w with
  | done => rfl
  | raise e => rfl
  | act c k ih => exact ih _ _ _

theorem free_strategies (tick : TickFn) (env : REnv) (e : ℕ) (b : Bool) (n : ℕ) (l : List ℕ) : ∀ w : World,
    fexecStrategies tick env.free e b n w l = rexecStrategies tick env e b n w l := by
  have hcall : ∀ (w : World) s cb, w.fcall tick env.free s cb e = w.rcall tick env s cb e := fun w s cb => free_prog tick _ _
  have hif : ∀ c (w : World) s cb, w.fcallIf tick env.free c s cb e = w.rcallIf tick env c s cb e := by
    intro c w s cb; unfold World.fcallIf World.rcallIf; rw [hcall]
  have hone : ∀ (w : World) s, w.fexecStrategy tick env.free e s b = w.rexecStrategy tick env e s b := by
    intro w s
    unfold World.fexecStrategy World.rexecStrategy
    rcases w.epics[e]? with _ | ep
    · rfl
    · rcases w.strategies[s]? with _ | st
      · rfl
      · simp only
        unfold World.fnotifyAll World.rnotifyAll
        simp only [hif, hcall]
  induction l with
  | nil => intro w; rfl
  | cons s rest ih =>
    intro w
    unfold fexecStrategies rexecStrategies
    rw [hone]
    have : (fun w => fexecStrategies tick env.free e b n w rest) = fun w => rexecStrategies tick env e b n w rest :=
      funext ih
    rw [this]

theorem free_tick (env : REnv) (d : ℕ) : World.ftick env.free d = World.rtick env d := by
  induction d with
  | zero => rfl
  | succ d ih =>
    funext w e k
    unfold World.ftick World.rtick
    rcases w.epics[e]? with _ | ep
    · rfl
    · simp only [free_strategies, ih]
      split_ifs
      · rfl
      · rcases (ep.accept { k with dt := k.dt.to ep.zone }).2 with _ | err <;> rfl

/-- C97: without assignments the runs are those of C77; if only the main program assigns, and callbacks trade, those of C88. -/
theorem C97_conservative (d : ℕ) (w : World) :
    (∀ (env : REnv) (l : List Cmd), w.frun env.free d (l.map .cmd) = w.rrun env d l) ∧
    ∀ (env : Env) (l : List SetCmd), w.frun env.lift.free (d + 1) l = w.runSets env l := by
  constructor
  · intro env l
    unfold World.frun World.rrun
    rw [List.foldl_map, free_tick]
    rfl
  · intro env l
    induction l generalizing w with
    | nil => rfl
    | cons c l ih =>
      have hc : w.fexec (World.ftick env.lift.free (d + 1)) c = w.execSet env c := by
        cases c with
        | assign e s => rfl
        | cmd c =>
          show w.rexec (World.ftick env.lift.free (d + 1)) c = w.exec env c
          rw [free_tick]
          exact lift_exec env d w c
      show (w.fexec (World.ftick env.lift.free (d + 1)) c).1.frun env.lift.free (d + 1) l = _
      rw [hc]; exact ih _

end

/-! ## Concrete cases -/

namespace Demo

/-- At the opening the first strategy moves the closing time before the opening, buys, replaces the provider and buys the double;
the second one sells half of what it sees at every tick on an open market. -/
def meddler : FEnv := fun s cb _ _ => match s, cb with
  | 0, .marketOpen => .act (.assign 0 (.closeTime (479 * minUs))) fun _ _ =>
      .act (.cmd (.op (.openTrade 0 (some 0) (some .buy) 2))) fun _ _ =>
      .act (.assign 0 (.provider 1)) fun _ _ =>
      .act (.cmd (.op (.openTrade 0 (some 1) (some .buy) 4))) fun _ _ => .done
  | 1, .everyTickOpen => .act (.cmd (.op (.closeOpened 1 (some 3)))) fun _ _ => .done
  | _, _ => .done

/-- Two strategies, a tick at 08:00 and one at 08:01. -/
def meddled : List SetCmd :=
  [.cmd (.addStrategy 0 0), .cmd (.addStrategy 0 1), .cmd (.tick 0 (tk 480 10 12)), .cmd (.tick 0 (tk 481 11 13))]

theorem meddler_all (Q : SetCmd → Prop) (h1 : ∀ s, Q (.assign 0 s)) (h2 : ∀ o, Op.Valid o → Q (.cmd (.op o))) :
    meddler.All Q := by
  intro s cb e w
  unfold meddler
  split
  · exact ⟨h1 _, fun _ _ => ⟨h2 _ (by simp [Op.Valid]), fun _ _ => ⟨h1 _, fun _ _ => ⟨h2 _ (by simp [Op.Valid]),
      fun _ _ => trivial⟩⟩⟩⟩
  · exact ⟨h2 _ (by simp [Op.Valid, QOk]), fun _ _ => trivial⟩
  · trivial

end Demo

/-- The closing time assigned at the opening shows at the next tick: all callbacks of the first one are those of an open
market. -/
example : letI := Arith.exact
    (Demo.twoProviders.frun Demo.meddler 1 Demo.meddled).log =
      [.accepted 0 (Demo.tk 480 10 12), .notify 0 0 .marketOpen, .notify 0 0 .everyTickOpen, .notify 0 0 .everyTick,
       .notify 1 0 .marketOpen, .notify 1 0 .everyTickOpen, .notify 1 0 .everyTick,
       .accepted 0 (Demo.tk 481 11 13), .notify 0 0 .marketClose, .notify 0 0 .everyTick,
       .notify 1 0 .marketClose, .notify 1 0 .everyTick] := by
  letI := Arith.exact
  decide +kernel

/-- The first trade is with the provider of before, the second with the new one, whose ticks revalue it. -/
example : letI := Arith.exact
    let w := Demo.twoProviders.frun Demo.meddler 1 Demo.meddled
    w.providers.map Provider.trades = [[0], [1]] ∧ w.strategies.map Strategy.trades = [[0], [1]] ∧
      w.trades.map Trade.openQty = [2, 4] ∧ w.trades.map (fun t => t.closes.map TradeClose.qty) = [[], [3]] ∧
      w.trades.map Trade.result = [-4, -7] := by
  letI := Arith.exact
  decide +kernel

/-- C97_flat: the flat program of that run. -/
example : letI := Arith.exact
    let w := Demo.twoProviders.frun Demo.meddler 1 Demo.meddled
    let v := Demo.twoProviders.runSets Spec.idle [.cmd (.addStrategy 0 0), .cmd (.addStrategy 0 1),
      .cmd (.tick 0 (Demo.tk 480 10 12)), .assign 0 (.closeTime (479 * minUs)),
      .cmd (.op (.openTrade 0 (some 0) (some .buy) 2)), .assign 0 (.provider 1),
      .cmd (.op (.openTrade 0 (some 1) (some .buy) 4)), .cmd (.op (.closeOpened 1 (some 3))),
      .cmd (.tick 0 (Demo.tk 481 11 13))]
    w.trades.map Trade.result = v.trades.map Trade.result ∧ w.epics.map Epic.closeTime = v.epics.map Epic.closeTime ∧
      w.epics.map Epic.marketOpen = v.epics.map Epic.marketOpen ∧ w.log.filter Spec.isTick = v.log.filter Spec.isTick := by
  letI := Arith.exact
  decide +kernel

example : Demo.meddler.All Spec.NoTick := Demo.meddler_all _ (fun _ _ _ h => by cases h) (fun _ _ _ _ h => by cases h)

example : Demo.meddler.All Spec.SetValid := Demo.meddler_all _ (fun _ => trivial) (fun _ h => h)

example : Demo.meddler.All Spec.AllHoursCmd := Demo.meddler_all _ (fun _ => trivial) (fun _ _ => trivial)

example : ∀ c ∈ Demo.meddled, Spec.SetValid c ∧ Spec.AllHoursCmd c := by
  intro c hc
  simp only [Demo.meddled, List.mem_cons, List.not_mem_nil, or_false] at hc
  rcases hc with rfl | rfl | rfl | rfl <;> exact ⟨trivial, trivial⟩

/-- C97_conservative: the run of C77. -/
example : letI := Arith.exact
    (Demo.world.frun Demo.feeder.free 2 (Demo.two.map .cmd)).trades.map Trade.result = [352] := by
  letI := Arith.exact
  decide +kernel

/-- C97, what the assignment of a provider breaks (C77_registered): an open trade may be in the list of a provider that is not
the one of its epic. -/
theorem C97_provider_false : ∃ (A : Arith) (env : FEnv) (w0 : World) (l : List SetCmd) (t : Trade) (ep : Epic) (pr : Provider),
    w0.Init ∧ (@World.frun A env 1 w0 l).trades[0]? = some t ∧ 0 < t.openQty ∧
      (@World.frun A env 1 w0 l).epics[t.epic]? = some ep ∧
      (@World.frun A env 1 w0 l).providers[ep.provider]? = some pr ∧ 0 ∉ pr.trades := by
  letI := Arith.exact
  have e1 : ((Demo.twoProviders.frun Demo.meddler 1 Demo.meddled).trades[0]'(by decide +kernel)).epic = 0 := by decide +kernel
  have e2 : ((Demo.twoProviders.frun Demo.meddler 1 Demo.meddled).epics[0]'(by decide +kernel)).provider = 1 := by
    decide +kernel
  refine ⟨Arith.exact, Demo.meddler, Demo.twoProviders, Demo.meddled,
    (Demo.twoProviders.frun Demo.meddler 1 Demo.meddled).trades[0]'(by decide +kernel),
    (Demo.twoProviders.frun Demo.meddler 1 Demo.meddled).epics[0]'(by decide +kernel),
    (Demo.twoProviders.frun Demo.meddler 1 Demo.meddled).providers[1]'(by decide +kernel), Demo.twoProviders_init,
    List.getElem?_eq_getElem _, by decide +kernel, ?_, ?_, by decide +kernel⟩
  · rw [e1]; exact List.getElem?_eq_getElem _
  · rw [e2]; exact List.getElem?_eq_getElem _

end Estrade
