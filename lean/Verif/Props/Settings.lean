import Verif.Settings
import Verif.Lemmas.EpicFront
import Verif.Props.Callbacks

/-!
# C88: the settings of an epic may be changed while it runs
-/

set_option autoImplicit false
set_option linter.style.haveILetI false
set_option linter.unusedSectionVars false

namespace Estrade

/-! ## Specification -/

/-- Spec: trading hours and days. -/
structure Spec.Schedule where
  openTime : ℤ
  closeTime : ℤ
  tradeDays : List ℤ
  holidays : List ℤ

/-- Spec: the schedule of an epic object. -/
def Spec.scheduleOf (ep : Epic) : Spec.Schedule := ⟨ep.openTime, ep.closeTime, ep.tradeDays, ep.holidays⟩

/-- Spec: what an assignment makes of a schedule. -/
def Spec.Schedule.put (s : Spec.Schedule) : Setting → Spec.Schedule
  | .openTime t => ⟨t, s.closeTime, s.tradeDays, s.holidays⟩
  | .closeTime t => ⟨s.openTime, t, s.tradeDays, s.holidays⟩
  | .tradeDays l => ⟨s.openTime, s.closeTime, l, s.holidays⟩
  | .holidays l => ⟨s.openTime, s.closeTime, s.tradeDays, l⟩
  | .provider _ => s

/-- Spec: the schedule of epic `e` in force after the commands `l`: nothing but assignments changes it. -/
def Spec.inForce (e : ℕ) (s : Spec.Schedule) (l : List SetCmd) : Spec.Schedule :=
  l.foldl (fun s c => match c with
    | .assign e' x => if e' = e then s.put x else s
    | .cmd _ => s) s

/-- Spec: is the market open at a wall clock. -/
def Spec.Schedule.Open (s : Spec.Schedule) (wall : ℤ) : Prop :=
  Spec.InSession s.openTime s.closeTime s.tradeDays s.holidays wall

instance (s : Spec.Schedule) (w : ℤ) : Decidable (s.Open w) := by unfold Spec.Schedule.Open; infer_instance

/-- Spec: the commands without the assignments. -/
def Spec.plainCmds (l : List SetCmd) : List Cmd :=
  l.filterMap (fun c => match c with
    | .cmd c => some c
    | .assign _ _ => none)

/-- Spec: what is seen of the market on an epic: zone, last tick, frames and indicators. -/
def Spec.seen (ep : Epic) : Zone × Tick × Dict FrameSet := (ep.zone, ep.lastTick, ep.frameSets)

/-- Spec: a new frame set whose indicators work at all times. -/
def Spec.AllHours (fs : FrameSet) : Prop := fs.heap = [] ∧ ∀ p ∈ fs.indicators, p.2.marketOpenOnly = false

/-- Spec: commands that add such frame sets and indicators only. -/
def Spec.AllHoursCmd : SetCmd → Prop
  | .cmd (.addFrameSet _ _ fs) => Spec.AllHours fs
  | .cmd (.addIndicator _ _ ind) => ind.marketOpenOnly = false
  | _ => True

/-- Spec: a command that is not the assignment of a provider. -/
def Spec.SameProvider : SetCmd → Prop
  | .assign _ (.provider _) => False
  | _ => True

section
variable [Arith]

/-! ## Schedules -/

theorem assign_cases (w : World) (e : ℕ) (s : Setting) :
    w.assign e s = (w, some .attr) ∨
    ∃ ep, w.epics[e]? = some ep ∧ w.assign e s = ({ w with epics := w.epics.set e (ep.assign s) }, none) := by
  unfold World.assign
  rcases h : w.epics[e]? with _ | ep
  · exact .inl rfl
  · cases s with
    | provider p =>
      simp only
      split_ifs
      · exact .inr ⟨ep, rfl, rfl⟩
      · exact .inl rfl
    | _ => exact .inr ⟨ep, rfl, rfl⟩

/-- Clock, zone and market flag are not touched by an assignment. -/
theorem assign_epic (w : World) (e : ℕ) (s : Setting) (i : ℕ) (ep : Epic) (h : w.epics[i]? = some ep) :
    ∃ ep', (w.assign e s).1.epics[i]? = some ep' ∧ ep'.zone = ep.zone ∧ ep'.lastTick = ep.lastTick ∧
      ep'.marketOpen = ep.marketOpen ∧ ep'.frameSets = ep.frameSets ∧ ep'.strategies = ep.strategies ∧
      Spec.scheduleOf ep' = if e = i then (Spec.scheduleOf ep).put s else Spec.scheduleOf ep := by
  rcases assign_cases w e s with h1 | ⟨x, h1, h2⟩
  · rw [h1]
    refine ⟨ep, h, rfl, rfl, rfl, rfl, rfl, ?_⟩
    split_ifs with he
    · subst he
      cases s with
      | provider p => rfl
      | _ => simp [World.assign, h] at h1
    · rfl
  · rw [h2]
    by_cases he : e = i
    · subst he
      rw [h] at h1; injection h1 with h1; subst h1
      refine ⟨ep.assign s, ?_, ?_⟩
      · show (w.epics.set e _)[e]? = _
        rw [List.getElem?_set, if_pos rfl, if_pos (getElem?_lt h)]
      · cases s <;> simp [Epic.assign, Spec.scheduleOf, Spec.Schedule.put]
    · refine ⟨ep, ?_, rfl, rfl, rfl, rfl, rfl, ?_⟩
      · show (w.epics.set e _)[i]? = _
        rw [List.getElem?_set, if_neg he]; exact h
      · rw [if_neg he]

theorem assign_rest (w : World) (e : ℕ) (s : Setting) :
    (w.assign e s).1.log = w.log ∧ (w.assign e s).1.trades = w.trades ∧ (w.assign e s).1.providers = w.providers ∧
      (w.assign e s).1.strategies = w.strategies := by
  rcases assign_cases w e s with h1 | ⟨x, h1, h2⟩
  · rw [h1]; exact ⟨rfl, rfl, rfl, rfl⟩
  · rw [h2]; exact ⟨rfl, rfl, rfl, rfl⟩

theorem exec_schedule (env : Env) (w : World) (c : Cmd) (i : ℕ) (ep : Epic) (h : w.epics[i]? = some ep) :
    ∃ ep', (w.exec env c).1.epics[i]? = some ep' ∧ ep'.zone = ep.zone ∧ Spec.scheduleOf ep' = Spec.scheduleOf ep := by
  by_cases hc : ∃ e t, c = .tick e t
  · obtain ⟨e, t, rfl⟩ := hc
    rcases tick_effect env w e t with ⟨h1, -⟩ | ⟨x, h1, -, h2, -⟩
    · rw [h1]; exact ⟨ep, h, rfl, rfl⟩
    · rw [h2, List.getElem?_set]
      by_cases he : e = i
      · subst he
        rw [if_pos rfl, if_pos (getElem?_lt h)]
        rw [h] at h1; injection h1 with h1; subst h1
        exact ⟨_, rfl, rfl, rfl⟩
      · rw [if_neg he]; exact ⟨ep, h, rfl, rfl⟩
  · push Not at hc
    obtain ⟨x, h1, h2⟩ := (exec_other env w c hc).2.2 i ep h
    refine ⟨x, h1, h2.zone, ?_⟩
    unfold Spec.scheduleOf
    rw [h2.opening, h2.closing, h2.days, h2.off]

theorem execSet_schedule (env : Env) (w : World) (c : SetCmd) (i : ℕ) (ep : Epic) (h : w.epics[i]? = some ep) :
    ∃ ep', (w.execSet env c).1.epics[i]? = some ep' ∧ ep'.zone = ep.zone ∧
      Spec.scheduleOf ep' = Spec.inForce i (Spec.scheduleOf ep) [c] := by
  cases c with
  | cmd c => exact exec_schedule env w c i ep h
  | assign e s =>
    obtain ⟨ep', h1, h2, -, -, -, -, h3⟩ := assign_epic w e s i ep h
    exact ⟨ep', h1, h2, h3⟩

theorem inForce_cons (e : ℕ) (s : Spec.Schedule) (c : SetCmd) (l : List SetCmd) :
    Spec.inForce e s (c :: l) = Spec.inForce e (Spec.inForce e s [c]) l := rfl

theorem runSets_cons (env : Env) (w : World) (c : SetCmd) (l : List SetCmd) :
    w.runSets env (c :: l) = (w.execSet env c).1.runSets env l := rfl

theorem runSets_append (env : Env) (w : World) (l l' : List SetCmd) :
    w.runSets env (l ++ l') = (w.runSets env l).runSets env l' := by
  unfold World.runSets; rw [List.foldl_append]

/-- C88: trading hours and days are always the values last assigned (or given to the constructor), whatever the program and its
callbacks do. -/
theorem C88_in_force (env : Env) (l : List SetCmd) : ∀ (w : World) (e : ℕ) (ep : Epic), w.epics[e]? = some ep →
    ∃ ep', (w.runSets env l).epics[e]? = some ep' ∧ ep'.zone = ep.zone ∧
      Spec.scheduleOf ep' = Spec.inForce e (Spec.scheduleOf ep) l := by
  induction l with
  | nil => intro w e ep h; exact ⟨ep, h, rfl, rfl⟩
  | cons c l ih =>
    intro w e ep h
    obtain ⟨x, h1, h2, h3⟩ := execSet_schedule env w c e ep h
    obtain ⟨y, h4, h5, h6⟩ := ih _ e x h1
    exact ⟨y, h4, h5.trans h2, by rw [h6, h3]; rfl⟩

theorem execSet_accepted (env : Env) (w : World) (c : SetCmd) (e : ℕ) :
    ∃ L, Spec.acceptedOn e (w.execSet env c).1.log = Spec.acceptedOn e w.log ++ L ∧
      (L = [] → (w.execSet env c).1.marketOpen e = w.marketOpen e) := by
  cases c with
  | assign e' s =>
    refine ⟨[], ?_, fun _ => ?_⟩
    · show Spec.acceptedOn e (w.assign e' s).1.log = _
      rw [(assign_rest w e' s).1, List.append_nil]
    · show (w.assign e' s).1.marketOpen e = _
      unfold World.marketOpen
      rcases h : w.epics[e]? with _ | ep
      · rcases assign_cases w e' s with h1 | ⟨x, h1, h2⟩
        · rw [h1, h]
        · rw [h2]
          show (match (w.epics.set e' _)[e]? with | none => false | some ep => ep.marketOpen) = _
          rw [List.getElem?_eq_none (by simp; exact List.getElem?_eq_none_iff.mp h)]
      · obtain ⟨ep', h1, -, -, h2, -⟩ := assign_epic w e' s e ep h
        rw [h1]; exact h2
  | cmd c =>
    show ∃ L, Spec.acceptedOn e (w.exec env c).1.log = _ ∧ (L = [] → (w.exec env c).1.marketOpen e = _)
    by_cases hc : ∃ e t, c = .tick e t
    · obtain ⟨e', t, rfl⟩ := hc
      rcases tick_effect env w e' t with ⟨h1, -⟩ | ⟨x, h1, -, h2, h3⟩
      · rw [h1]; exact ⟨[], by simp, fun _ => rfl⟩
      · refine ⟨_, h3 e, fun hL => ?_⟩
        by_cases he : e' = e
        · rw [if_pos he] at hL; cases hL
        · unfold World.marketOpen
          rw [h2, List.getElem?_set, if_neg he]
    · push Not at hc
      obtain ⟨h1, h2, h3⟩ := exec_other env w c hc
      refine ⟨[], by rw [h1, List.append_nil], fun _ => ?_⟩
      unfold World.marketOpen
      rcases h : w.epics[e]? with _ | ep
      · rw [List.getElem?_eq_none (by rw [h2]; exact List.getElem?_eq_none_iff.mp h)]
      · obtain ⟨x, h4, h5⟩ := h3 e ep h
        rw [h4]; exact h5.flag

theorem runSets_accepted (env : Env) (l : List SetCmd) : ∀ (w : World) (e : ℕ),
    ∃ L, Spec.acceptedOn e (w.runSets env l).log = Spec.acceptedOn e w.log ++ L ∧
      (L = [] → (w.runSets env l).marketOpen e = w.marketOpen e) := by
  induction l with
  | nil => intro w e; exact ⟨[], by simp [World.runSets], fun _ => rfl⟩
  | cons c l ih =>
    intro w e
    obtain ⟨L, h1, h2⟩ := execSet_accepted env w c e
    obtain ⟨L', h3, h4⟩ := ih (w.execSet env c).1 e
    refine ⟨L ++ L', by rw [runSets_cons, h3, h1, List.append_assoc], fun h => ?_⟩
    obtain ⟨ha, hb⟩ := List.append_eq_nil_iff.mp h
    rw [runSets_cons, h4 hb, h2 ha]

/-- C88: `market_open` is what the schedule in force at the last accepted tick says of that tick; an assignment shows at the next
tick, not before. -/
theorem C88_market_open (env : Env) (w : World) (e : ℕ) (ep : Epic) (hep : w.epics[e]? = some ep) (l₁ : List SetCmd) (k : Tick)
    (l₂ : List SetCmd)
    (hacc : Spec.acceptedOn e (w.runSets env (l₁ ++ [.cmd (.tick e k)])).log =
      Spec.acceptedOn e (w.runSets env l₁).log ++ [Spec.localTick ep.zone k])
    (hlast : Spec.acceptedOn e (w.runSets env (l₁ ++ .cmd (.tick e k) :: l₂)).log =
      Spec.acceptedOn e (w.runSets env (l₁ ++ [.cmd (.tick e k)])).log) :
    (w.runSets env (l₁ ++ .cmd (.tick e k) :: l₂)).marketOpen e =
      decide ((Spec.inForce e (Spec.scheduleOf ep) l₁).Open (Spec.localTick ep.zone k).dt.wall) := by
  have e1 : l₁ ++ .cmd (.tick e k) :: l₂ = (l₁ ++ [.cmd (.tick e k)]) ++ l₂ := by simp
  rw [e1, runSets_append] at hlast ⊢
  obtain ⟨L, h1, h2⟩ := runSets_accepted env l₂ (w.runSets env (l₁ ++ [.cmd (.tick e k)])) e
  rw [h1] at hlast
  rw [h2 (List.append_right_eq_self.mp hlast)]
  rw [runSets_append] at hacc ⊢
  obtain ⟨x, h3, h4, h5⟩ := C88_in_force env l₁ w e ep hep
  change Spec.acceptedOn e ((w.runSets env l₁).exec env (.tick e k)).1.log = _ at hacc
  show ((w.runSets env l₁).exec env (.tick e k)).1.marketOpen e = _
  rcases tick_effect env (w.runSets env l₁) e k with ⟨h6, -⟩ | ⟨y, h6, -, h7, -⟩
  · rw [h6] at hacc
    have := congrArg List.length hacc
    simp at this
  · rw [h3] at h6; injection h6 with h6; subst h6
    have h8 := marketOpen_accept (k := Spec.localTick x.zone k) h3 h7
    rw [h8, h4, ← h5]
    rfl

/-- C88: before the first tick the market is closed, whatever is assigned. -/
theorem C88_market_start (env : Env) (w : World) (hw : w.Init) (e : ℕ) (l : List SetCmd)
    (h : Spec.acceptedOn e (w.runSets env l).log = []) : (w.runSets env l).marketOpen e = false := by
  obtain ⟨L, h1, h2⟩ := runSets_accepted env l w e
  rw [h2 (List.append_eq_nil_iff.mp (h1.symm.trans h)).2]
  unfold World.marketOpen
  rcases hep : w.epics[e]? with _ | ep
  · rfl
  · obtain ⟨ref, z, o, c, td, hd, p, -, rfl⟩ := hw.epics ep (List.mem_of_getElem? hep)
    rfl

/-- C88: the callbacks of a tick are those due to the change from the market state before it to the one the schedule in force
says, in order; all of them if nothing raises (C18). -/
theorem C88_callbacks (env : Env) (w : World) (e : ℕ) (ep : Epic) (hep : w.epics[e]? = some ep) (l : List SetCmd) (k : Tick) :
    (w.runSets env (l ++ [.cmd (.tick e k)])).log = (w.runSets env l).log ∨
    ∃ (regs : List ℕ) (acts : List Bool) (L : List Event), acts.length = regs.length ∧
      (∃ x, (w.runSets env l).epics[e]? = some x ∧ regs = x.strategies.map Prod.snd) ∧
      (w.runSets env (l ++ [.cmd (.tick e k)])).log = (w.runSets env l).log ++ .accepted e (Spec.localTick ep.zone k) :: L ∧
      L <+: Spec.told e ((w.runSets env l).marketOpen e)
        (decide ((Spec.inForce e (Spec.scheduleOf ep) l).Open (Spec.localTick ep.zone k).dt.wall)) (regs.zip acts) := by
  obtain ⟨x, h3, h4, h5⟩ := C88_in_force env l w e ep hep
  rw [runSets_append]
  show ((w.runSets env l).onNewTick env e k).1.log = _ ∨ ∃ regs acts L, _ ∧ _ ∧ ((w.runSets env l).onNewTick env e k).1.log = _ ∧ _
  rcases C18_nothing_else env (w.runSets env l) e x k h3 with h | ⟨acts, L, a1, a2, a3⟩
  · exact .inl h
  · right
    refine ⟨x.strategies.map Prod.snd, acts, L, by rw [a1, List.length_map], ⟨x, h3, rfl⟩, by rw [← h4]; exact a2, ?_⟩
    have e1 : (w.runSets env l).marketOpen e = x.marketOpen := by unfold World.marketOpen; rw [h3]
    rw [e1, ← h5, ← h4]
    exact a3

/-! ## Frames -/

/-- No value of the frame is restricted to an open market. -/
def Freed (f : Frame) : Prop := ∀ p ∈ f.inds, ∀ v, p.2 = some v → v.ind.marketOpenOnly = false

/-- No indicator and no value is. -/
structure FreedSet (fs : FrameSet) : Prop where
  inds : ∀ p ∈ fs.indicators, p.2.marketOpenOnly = false
  heap : ∀ f ∈ fs.heap, Freed f

theorem Freed.get {f : Frame} (h : Freed f) {r : String} {v : IndVal} (hv : f.get r = some v) :
    v.ind.marketOpenOnly = false := by
  unfold Frame.get at hv
  rcases hg : f.inds.get? r with _ | o
  · rw [hg] at hv; cases hv
  · rw [hg] at hv
    cases o with
    | none => cases hv
    | some x =>
      have : x = v := by simpa using hv
      exact h _ (Dict.mem_of_get? hg) v (by rw [this])

theorem Freed.set {f : Frame} (h : Freed f) (r : String) (o : Option IndVal)
    (ho : ∀ v, o = some v → v.ind.marketOpenOnly = false) : Freed { f with inds := f.inds.set r o } := by
  intro p hp v hv
  have hp' : p ∈ f.inds.set r o := hp
  unfold Dict.set at hp'
  split_ifs at hp'
  · obtain ⟨q, hq, rfl⟩ := List.mem_map.mp hp'
    split_ifs at hv with hk
    · exact ho v hv
    · exact h q hq v hv
  · rcases List.mem_append.mp hp' with h1 | h1
    · exact h p h1 v hv
    · rw [List.mem_singleton.mp h1] at hv; exact ho v hv

theorem track_ind (v : IndVal) (k : Tick) (mo : Bool) : (v.track k mo).ind = v.ind := by
  unfold IndVal.track; dsimp only; split_ifs <;> rfl

theorem track_freed {v : IndVal} (h : v.ind.marketOpenOnly = false) (k : Tick) (mo mo' : Bool) : v.track k mo = v.track k mo' := by
  unfold IndVal.track; rw [h]; rfl

theorem updateRsi_ind {heap : List Frame} {f : Frame} {n : ℤ} {v v' : IndVal} (h : updateRsi heap f n v = .ok v') :
    v'.ind = v.ind := by
  unfold updateRsi at h
  dsimp only at h
  split_ifs at h
  · rcases hb : buildRsi n (extendedChanges heap v f) with e | r
    · rw [hb] at h; cases h
    · rw [hb] at h; injection h with h; rw [← h]
  · injection h with h; rw [← h]

theorem onNewTick_ind {heap : List Frame} {f : Frame} {v v' : IndVal} {k : Tick} {mo : Bool}
    (h : v.onNewTick heap f k mo = .ok v') : v'.ind = v.ind := by
  unfold IndVal.onNewTick at h
  dsimp only at h
  split at h
  · exact (updateRsi_ind h).trans (track_ind v k mo)
  · injection h with h; rw [← h]; exact track_ind v k mo

theorem new_ind {heap : List Frame} {ind : Indicator} {id : ℕ} {f : Frame} {v : IndVal} (h : IndVal.new heap ind id f = .ok v) :
    v.ind = ind := by
  unfold IndVal.new at h
  dsimp only at h
  split at h
  · split at h
    · injection h with h; rw [← h]; rfl
    · rename_i p hp
      rcases hc : prevCloses heap p with e | c
      · rw [hc] at h; cases h
      · rw [hc] at h; injection h with h; rw [← h]; rfl
  · split at h
    · cases h
    · split_ifs at h
      split at h
      · exact updateRsi_ind h
      · rename_i p hp
        rcases hc : prevChanges heap p with e | c
        · rw [hc] at h; cases h
        · rw [hc] at h; exact updateRsi_ind h
  · injection h with h; rw [← h]; rfl

theorem build_ind {heap : List Frame} {ind : Indicator} {id : ℕ} {f : Frame} {mo : Bool} {o : Option IndVal}
    (h : ind.build heap id f mo = .ok o) : ∀ v, o = some v → v.ind = ind := by
  intro v hv
  unfold Indicator.build at h
  split_ifs at h
  · rcases hc : IndVal.new heap ind id f with e | c
    · rw [hc] at h; cases h
    · rw [hc] at h
      have h' : (.ok (some c) : Except PyErr (Option IndVal)) = .ok o := h
      injection h' with h'
      rw [hv] at h'; injection h' with h'
      rw [← h']; exact new_ind hc
  · injection h with h; rw [hv] at h; cases h

theorem feedOne_freed {heap : List Frame} {id : ℕ} {k : Tick} {f : Frame} (hf : Freed f) {p : String × Indicator}
    (hp : p.2.marketOpenOnly = false) (mo mo' : Bool) :
    feedOne heap id k mo f p = feedOne heap id k mo' f p ∧ Freed (feedOne heap id k mo f p).1 := by
  unfold feedOne
  rcases hg : f.get p.1 with _ | v
  · simp only
    have e1 : p.2.build heap id f mo = p.2.build heap id f mo' := by
      unfold Indicator.build; rw [hp]; rfl
    rw [← e1]
    refine ⟨rfl, ?_⟩
    rcases hb : p.2.build heap id f mo with e | o
    · exact hf
    · exact hf.set _ _ (fun v hv => by rw [build_ind hb v hv]; exact hp)
  · simp only
    have hv := hf.get hg
    have e1 : v.onNewTick heap f k mo = v.onNewTick heap f k mo' := by
      unfold IndVal.onNewTick; rw [track_freed hv k mo mo']
    rw [← e1, track_freed hv k mo' mo]
    refine ⟨rfl, ?_⟩
    rcases hb : v.onNewTick heap f k mo with e | v'
    · exact hf.set _ _ (fun x hx => by injection hx with hx; rw [← hx, track_ind]; exact hv)
    · exact hf.set _ _ (fun x hx => by injection hx with hx; rw [← hx, onNewTick_ind hb]; exact hv)

theorem feedInds_freed {heap : List Frame} {id : ℕ} {k : Tick} (mo mo' : Bool) (inds : Dict Indicator) : ∀ {f : Frame}, Freed f →
    (∀ p ∈ inds, p.2.marketOpenOnly = false) →
    feedInds heap id k mo inds f = feedInds heap id k mo' inds f ∧ Freed (feedInds heap id k mo inds f).1 := by
  induction inds with
  | nil => intro f hf _; exact ⟨rfl, hf⟩
  | cons p rest ih =>
    intro f hf hp
    obtain ⟨h1, h2⟩ := feedOne_freed (heap := heap) (id := id) (k := k) hf (hp p (by simp)) mo mo'
    unfold feedInds
    rw [← h1]
    rcases hx : feedOne heap id k mo f p with ⟨f', _ | e⟩
    · rw [hx] at h2
      exact ih h2 (fun q hq => hp q (List.mem_cons_of_mem _ hq))
    · rw [hx] at h2
      exact ⟨rfl, h2⟩

theorem upsert_eq (heap : List Frame) (id : ℕ) (k : Tick) (mo : Bool) (inds : Dict Indicator) (f : Frame) :
    upsert heap id k mo inds f = match (feedInds heap id k mo inds f).2 with
      | none => .ok (feedInds heap id k mo inds f).1
      | some e => .error e := by
  have h := feedInds_agrees heap id k mo inds f
  rcases hx : (feedInds heap id k mo inds f).2 with _ | e
  · exact h.ok hx
  · exact h.error hx

theorem freed_modify {l : List Frame} (h : ∀ f ∈ l, Freed f) (i : ℕ) (g : Frame → Frame) (hg : ∀ f, (g f).inds = f.inds) :
    ∀ f ∈ l.modify i g, Freed f := by
  intro f hf
  obtain ⟨n, hn⟩ := List.mem_iff_getElem?.mp hf
  rw [List.getElem?_modify] at hn
  rcases hb : l[n]? with _ | b
  · rw [hb] at hn; simp at hn
  · rw [hb] at hn
    have h1 := h b (List.mem_of_getElem? hb)
    simp only [Option.map_eq_map, Option.map_some, Option.some.injEq] at hn
    split_ifs at hn
    · rw [← hn]; intro p hp; rw [hg] at hp; exact h1 p hp
    · rw [← hn]; exact h1

theorem feedClean_freed (max : ℤ) (ids : List ℕ) : ∀ (heap : List Frame), (∀ f ∈ heap, Freed f) →
    ∀ f ∈ (feedClean max heap ids).1.1, Freed f := by
  induction ids with
  | nil => intro heap h; exact h
  | cons a ids ih =>
    intro heap h
    cases ids with
    | nil => exact h
    | cons b rest =>
      unfold feedClean
      split_ifs
      · exact ih _ (freed_modify (freed_modify h _ _ (by intro f; rfl)) _ _ (by intro f; rfl))
      · exact h

/-- Two moments seen by a frame set: they differ in the market flag only. -/
structure SameMoment (c c' : Ctx) : Prop where
  zone : c.zone = c'.zone
  day : c.epic.map Prod.snd = c'.epic.map Prod.snd

theorem feedCreate_freed {fs : FrameSet} (hfs : FreedSet fs) (c c' : Ctx) (k : Tick) (ps : ℤ) (pe : Option ℤ) :
    fs.feedCreate c k ps pe = fs.feedCreate c' k ps pe ∧ FreedSet (fs.feedCreate c k ps pe).1 := by
  have h0 : Freed (Frame.fresh k ps pe fs.frames.getLast?) := by intro p hp; cases hp
  obtain ⟨h1, h2⟩ := feedInds_freed (heap := fs.heap) (id := fs.heap.length) (k := k) c.marketOpen c'.marketOpen fs.indicators h0
    hfs.inds
  unfold FrameSet.feedCreate
  dsimp only
  rw [upsert_eq, upsert_eq, ← h1]
  refine ⟨rfl, ?_⟩
  rcases hx : (feedInds fs.heap fs.heap.length k c.marketOpen fs.indicators (Frame.fresh k ps pe fs.frames.getLast?)).2 with _ | e
  · refine ⟨hfs.inds, feedClean_freed _ _ _ ?_⟩
    intro f hf
    rcases List.mem_append.mp hf with hf | hf
    · revert hf
      unfold linkNext
      split
      · exact hfs.heap f
      · exact freed_modify hfs.heap _ _ (by intro f; rfl) f
    · rw [List.mem_singleton.mp hf]; exact h2
  · exact hfs

theorem feedFill_freed {c c' : Ctx} (hc : SameMoment c c') (ps : ℤ) (n : ℕ) : ∀ {fs : FrameSet}, FreedSet fs →
    feedFill c ps n fs = feedFill c' ps n fs ∧ FreedSet (feedFill c ps n fs).1 := by
  induction n with
  | zero =>
    intro fs hfs
    unfold feedFill
    rcases fs.current with _ | ⟨i, f⟩
    · exact ⟨rfl, hfs⟩
    · dsimp only
      rcases f.periodEnd with _ | pe
      · exact ⟨rfl, hfs⟩
      · dsimp only
        split_ifs <;> exact ⟨rfl, hfs⟩
  | succ n ih =>
    intro fs hfs
    unfold feedFill
    rcases fs.current with _ | ⟨i, f⟩
    · exact ⟨rfl, hfs⟩
    · dsimp only
      rcases f.periodEnd with _ | pe
      · exact ⟨rfl, hfs⟩
      · dsimp only
        split_ifs
        · obtain ⟨h1, h2⟩ := feedCreate_freed hfs c c' f.last pe (some (frameEnd c.zone fs.unit fs.qty pe))
          rw [← hc.zone, ← h1]
          rcases hx : fs.feedCreate c f.last pe (some (frameEnd c.zone fs.unit fs.qty pe)) with ⟨fs', _ | e⟩
          · rw [hx] at h2; exact ih h2
          · rw [hx] at h2; exact ⟨rfl, h2⟩
        · exact ⟨rfl, hfs⟩

theorem feedLast_freed {fs : FrameSet} (hfs : FreedSet fs) (c c' : Ctx) (k : Tick) :
    fs.feedLast c k = fs.feedLast c' k ∧ FreedSet (fs.feedLast c k).1 := by
  unfold FrameSet.feedLast
  rcases hcur : fs.current with _ | ⟨i, f⟩
  · exact ⟨rfl, hfs⟩
  · dsimp only
    have hf : Freed f := by
      unfold FrameSet.current at hcur
      split at hcur
      · cases hcur
      · rename_i j hj
        rcases hh : fs.heap[j]? with _ | g
        · rw [hh] at hcur; cases hcur
        · rw [hh] at hcur
          simp only [Option.map_some, Option.some.injEq, Prod.mk.injEq] at hcur
          rw [← hcur.2]; exact hfs.heap g (List.mem_of_getElem? hh)
    have hft : Freed (f.track k) := by
      have : (f.track k).inds = f.inds := by unfold Frame.track; dsimp only; split_ifs <;> rfl
      intro p hp; rw [this] at hp; exact hf p hp
    obtain ⟨h1, h2⟩ := feedInds_freed (heap := fs.heap) (id := i) (k := k) c.marketOpen c'.marketOpen fs.indicators hft hfs.inds
    rw [← h1]
    refine ⟨rfl, hfs.inds, ?_⟩
    intro g hg
    rcases List.mem_or_eq_of_mem_set hg with hg | hg
    · exact hfs.heap g hg
    · rw [hg]; exact h2

theorem feed_freed {fs : FrameSet} (hfs : FreedSet fs) {c c' : Ctx} (hc : SameMoment c c') (k : Tick) :
    fs.feed c k = fs.feed c' k ∧ FreedSet (fs.feed c k).1 := by
  have hlast := feedLast_freed hfs c c' k
  have hov : fs.overTick c k = fs.overTick c' k := by
    have := hc.day
    unfold FrameSet.overTick
    revert this
    rcases c.epic with _ | ⟨a, b⟩ <;> rcases c'.epic with _ | ⟨a', b'⟩
    · intro _; rfl
    · intro h; cases h
    · intro h; cases h
    · intro h
      simp only [Option.map_some, Option.some.injEq] at h
      rw [h]
  unfold FrameSet.feed
  rw [← hov]
  split_ifs with hu h1
  · exact feedCreate_freed hfs c c' k _ _
  · exact hlast
  · rcases fs.overTimed k with e | over
    · exact ⟨rfl, hfs⟩
    · dsimp only
      split_ifs
      · unfold FrameSet.feedTimed
        rcases frameStart fs.unit fs.qty k.dt.wall with e | ps
        · exact ⟨rfl, hfs⟩
        · dsimp only
          obtain ⟨h1, h2⟩ := feedFill_freed hc ps (fillFuel fs ps) hfs
          rw [← h1, ← hc.zone]
          rcases hx : feedFill c ps (fillFuel fs ps) fs with ⟨fs', _ | e⟩
          · rw [hx] at h2
            exact feedCreate_freed h2 c c' k _ _
          · rw [hx] at h2
            exact ⟨rfl, h2⟩
      · exact hlast

theorem updateFrameSets_freed {c c' : Ctx} (hc : SameMoment c c') (k : Tick) (d : Dict FrameSet) (hd : ∀ p ∈ d, FreedSet p.2) :
    updateFrameSets c k d = updateFrameSets c' k d ∧ ∀ p ∈ (updateFrameSets c k d).1, FreedSet p.2 := by
  induction d with
  | nil => exact ⟨rfl, hd⟩
  | cons p rest ih =>
    obtain ⟨h1, h2⟩ := feed_freed (hd p (by simp)) hc k
    obtain ⟨h3, h4⟩ := ih (fun q hq => hd q (List.mem_cons_of_mem _ hq))
    unfold updateFrameSets
    dsimp only
    rw [← h1, ← h3]
    rcases hx : p.2.feed c k with ⟨fs', _ | e⟩
    · rw [hx] at h2
      refine ⟨rfl, ?_⟩
      intro q hq
      rcases List.mem_cons.mp hq with rfl | hq
      · exact h2
      · exact h4 q hq
    · rw [hx] at h2
      refine ⟨rfl, ?_⟩
      intro q hq
      rcases List.mem_cons.mp hq with rfl | hq
      · exact h2
      · exact hd q (List.mem_cons_of_mem _ hq)

/-- All frame sets of the epics are free. -/
def FreedEpics (l : List Epic) : Prop := ∀ ep ∈ l, ∀ p ∈ ep.frameSets, FreedSet p.2

theorem seen_get {l l' : List Epic} (h : l.map Spec.seen = l'.map Spec.seen) (e : ℕ) :
    (l[e]?).map Spec.seen = (l'[e]?).map Spec.seen := by
  rw [← List.getElem?_map, ← List.getElem?_map, h]

theorem seen_set {l l' : List Epic} (h : l.map Spec.seen = l'.map Spec.seen) (e : ℕ) {x x' : Epic} (hx : Spec.seen x = Spec.seen x') :
    (l.set e x).map Spec.seen = (l'.set e x').map Spec.seen := by
  rw [List.map_set, List.map_set, h, hx]

theorem freed_set {l : List Epic} (h : FreedEpics l) (e : ℕ) {x : Epic} (hx : ∀ p ∈ x.frameSets, FreedSet p.2) :
    FreedEpics (l.set e x) := by
  intro ep hep
  rcases List.mem_or_eq_of_mem_set hep with h1 | h1
  · exact h ep h1
  · rw [h1]; exact hx

theorem dict_set_freed {d : Dict FrameSet} (hd : ∀ p ∈ d, FreedSet p.2) (r : String) {fs : FrameSet} (h : FreedSet fs) :
    ∀ p ∈ d.set r fs, FreedSet p.2 := by
  intro p hp
  unfold Dict.set at hp
  split_ifs at hp
  · obtain ⟨q, hq, rfl⟩ := List.mem_map.mp hp
    split_ifs
    · exact h
    · exact hd q hq
  · rcases List.mem_append.mp hp with h1 | h1
    · exact hd p h1
    · rw [List.mem_singleton.mp h1]; exact h

theorem addIndicator_freed {fs : FrameSet} (h : FreedSet fs) {ind : Indicator} (hi : ind.marketOpenOnly = false) :
    FreedSet (fs.addIndicator ind).1 := by
  have key : ∀ (r : String) (x : Indicator), x.marketOpenOnly = false → ∀ p ∈ fs.indicators.set r x, p.2.marketOpenOnly = false := by
    intro r x hx p hp
    unfold Dict.set at hp
    split_ifs at hp
    · obtain ⟨q, hq, rfl⟩ := List.mem_map.mp hp
      split_ifs
      · exact hx
      · exact h.inds q hq
    · rcases List.mem_append.mp hp with h1 | h1
      · exact h.inds p h1
      · rw [List.mem_singleton.mp h1]; exact hx
  unfold FrameSet.addIndicator
  split
  · exact ⟨key _ _ hi, h.heap⟩
  · exact ⟨key _ _ hi, h.heap⟩

/-- One command on what is seen: market hours play no role. -/
theorem frontStep_seen {l l' : List Epic} (h : l.map Spec.seen = l'.map Spec.seen) (hl : FreedEpics l) (c : Cmd)
    (hc : Spec.AllHoursCmd (.cmd c)) :
    (frontStep l c).map Spec.seen = (frontStep l' c).map Spec.seen ∧ FreedEpics (frontStep l c) := by
  cases c with
  | op o => exact ⟨h, hl⟩
  | addStrategy e s => exact ⟨h, hl⟩
  | tick e k =>
    have hg := seen_get h e
    simp only [frontStep]
    rcases he : l[e]? with _ | ep <;> rcases he' : l'[e]? with _ | ep' <;> rw [he, he'] at hg
    · exact ⟨h, hl⟩
    · cases hg
    · cases hg
    · simp only [Option.map_some, Option.some.injEq, Spec.seen, Prod.mk.injEq] at hg
      obtain ⟨h1, h2, h3⟩ := hg
      simp only
      rw [← h1, ← h2]
      split_ifs
      · exact ⟨h, hl⟩
      · set x : Tick := { k with dt := k.dt.to ep.zone } with hx
        have key := updateFrameSets_freed
          (c := ⟨ep.zone, some ((ep.accept x).1.marketOpen, ordOf x.dt.wall)⟩)
          (c' := ⟨ep.zone, some ((ep'.accept x).1.marketOpen, ordOf x.dt.wall)⟩) ⟨rfl, rfl⟩ x ep.frameSets
          (hl ep (List.mem_of_getElem? he))
        refine ⟨seen_set h e ?_, freed_set hl e key.2⟩
        have e1 : (ep.accept x).1.frameSets = (updateFrameSets
          ⟨ep.zone, some ((ep.accept x).1.marketOpen, ordOf x.dt.wall)⟩ x ep.frameSets).1 := rfl
        have e2 : (ep'.accept x).1.frameSets = (updateFrameSets
          ⟨ep'.zone, some ((ep'.accept x).1.marketOpen, ordOf x.dt.wall)⟩ x ep'.frameSets).1 := rfl
        unfold Spec.seen
        rw [e1, e2, key.1, ← h1, ← h3]
        exact Prod.ext h1 rfl
  | addFrameSet e ref fs =>
    have hg := seen_get h e
    simp only [frontStep]
    rcases he : l[e]? with _ | ep <;> rcases he' : l'[e]? with _ | ep' <;> rw [he, he'] at hg
    · exact ⟨h, hl⟩
    · cases hg
    · cases hg
    · simp only [Option.map_some, Option.some.injEq, Spec.seen, Prod.mk.injEq] at hg
      obtain ⟨h1, h2, h3⟩ := hg
      simp only
      rw [← h3]
      rcases ep.frameSets.get? ref with _ | g
      · have hnew : FreedSet fs := ⟨hc.2, by intro f hf; rw [hc.1] at hf; cases hf⟩
        exact ⟨seen_set h e (Prod.ext h1 (Prod.ext h2 rfl)),
          freed_set hl e (dict_set_freed (hl ep (List.mem_of_getElem? he)) _ hnew)⟩
      · exact ⟨h, hl⟩
  | addIndicator e ref ind =>
    have hg := seen_get h e
    simp only [frontStep]
    rcases he : l[e]? with _ | ep <;> rcases he' : l'[e]? with _ | ep' <;> rw [he, he'] at hg
    · exact ⟨h, hl⟩
    · cases hg
    · cases hg
    · simp only [Option.map_some, Option.some.injEq, Spec.seen, Prod.mk.injEq] at hg
      obtain ⟨h1, h2, h3⟩ := hg
      simp only
      rw [← h3]
      rcases hr : ep.frameSets.get? ref with _ | g
      · exact ⟨h, hl⟩
      · have hg := hl ep (List.mem_of_getElem? he) _ (Dict.mem_of_get? hr)
        exact ⟨seen_set h e (Prod.ext h1 (Prod.ext h2 rfl)),
          freed_set hl e (dict_set_freed (hl ep (List.mem_of_getElem? he)) _ (addIndicator_freed hg hc))⟩

theorem seen_front (l : List Epic) : (l.map Epic.front).map Spec.seen = l.map Spec.seen := by
  rw [List.map_map]; rfl

theorem freed_front {l : List Epic} : FreedEpics (l.map Epic.front) ↔ FreedEpics l := by
  constructor
  · intro h ep hep; exact h ep.front (List.mem_map_of_mem hep)
  · intro h ep hep
    obtain ⟨x, hx, rfl⟩ := List.mem_map.mp hep
    exact h x hx

theorem exec_seen (env env' : Env) {w w' : World} (h : w.epics.map Spec.seen = w'.epics.map Spec.seen) (hl : FreedEpics w.epics)
    (c : Cmd) (hc : Spec.AllHoursCmd (.cmd c)) :
    (w.exec env c).1.epics.map Spec.seen = (w'.exec env' c).1.epics.map Spec.seen ∧ FreedEpics (w.exec env c).1.epics := by
  have h1 := exec_front env w c
  have h2 := exec_front env' w' c
  obtain ⟨a, b⟩ := frontStep_seen (l := w.epics.map Epic.front) (l' := w'.epics.map Epic.front)
    (by rw [seen_front, seen_front, h]) (freed_front.mpr hl) c hc
  rw [← h1, ← h2, seen_front, seen_front] at a
  rw [← h1, freed_front] at b
  exact ⟨a, b⟩

/-- C88: trading hours, trade days, holidays and providers play no role for frames: with indicators that are not restricted to an
open market, frames, indicator values and the acceptance of ticks are those of the program without the assignments, whatever
the callbacks do in either. -/
theorem C88_frames (env env' : Env) (l : List SetCmd) (hl : ∀ c ∈ l, Spec.AllHoursCmd c) (w : World) (hw : w.Init) :
    (w.runSets env l).epics.map Spec.seen = (w.runCmds env' (Spec.plainCmds l)).epics.map Spec.seen := by
  have key : ∀ (l : List SetCmd), (∀ c ∈ l, Spec.AllHoursCmd c) → ∀ (w w' : World),
      w.epics.map Spec.seen = w'.epics.map Spec.seen → FreedEpics w.epics →
      (w.runSets env l).epics.map Spec.seen = (w'.runCmds env' (Spec.plainCmds l)).epics.map Spec.seen := by
    intro l
    induction l with
    | nil => intro _ w w' h _; exact h
    | cons c l ih =>
      intro hl w w' h hf
      have hl' := fun c hc => hl c (List.mem_cons_of_mem _ hc)
      cases c with
      | cmd c =>
        obtain ⟨a, b⟩ := exec_seen env env' h hf c (hl _ (by simp))
        exact ih hl' _ _ a b
      | assign e s =>
        refine ih hl' (w.assign e s).1 w' ?_ ?_
        · rw [← h]
          rcases assign_cases w e s with h1 | ⟨x, h1, h2⟩
          · rw [h1]
          · rw [h2]
            show (w.epics.set e _).map Spec.seen = _
            rw [List.map_set]
            have : Spec.seen (x.assign s) = Spec.seen x := by cases s <;> rfl
            rw [this]
            apply List.ext_getElem?
            intro i
            rw [List.getElem?_set]
            split_ifs with h3 h4
            · subst h3; rw [List.getElem?_map, h1]; rfl
            · subst h3; rw [List.getElem?_eq_none (by omega)]
            · rfl
        · rcases assign_cases w e s with h1 | ⟨x, h1, h2⟩
          · rw [h1]; exact hf
          · rw [h2]
            refine freed_set hf e ?_
            have : (x.assign s).frameSets = x.frameSets := by cases s <;> rfl
            rw [this]; exact hf x (List.mem_of_getElem? h1)
  refine key l hl w w rfl ?_
  intro ep hep p hp
  obtain ⟨ref, z, o, c, td, hd, pr, -, rfl⟩ := hw.epics ep hep
  cases hp

/-! ## Trades -/

theorem runSets_steps (env : Env) (l : List SetCmd) : (∀ c ∈ l, Spec.SameProvider c) → ∀ (w : World), EpicsOk w →
    WSteps False w (w.runSets env l) ∧ EpicsOk (w.runSets env l) := by
  induction l with
  | nil => intro _ w h; exact ⟨.refl, h⟩
  | cons c l ih =>
    intro hl w hw
    have h1 : WSteps False w (w.execSet env c).1 := by
      cases c with
      | cmd c => exact exec_steps (fun v => v.elim) w hw c (fun v => v.elim)
      | assign e s =>
        have hs : Spec.SameProvider (.assign e s) := hl _ (by simp)
        show WSteps False w (w.assign e s).1
        rcases assign_cases w e s with h1 | ⟨x, h1, h2⟩
        · rw [h1]
        · rw [h2]
          refine .single (.epics (w.epics.set e (x.assign s)) (map_provider_set _ _ x _ h1 ?_))
          cases s with
          | provider p => exact hs.elim
          | _ => rfl
    have h2 : EpicsOk (w.execSet env c).1 := WSteps.inv (fun a b ha hb => hb.epicsOk ha) h1 hw
    obtain ⟨h3, h4⟩ := ih (fun c hc => hl c (List.mem_cons_of_mem _ hc)) _ h2
    exact ⟨h1.trans h3, h4⟩

/-- Spec: the full claim on trades: every open trade of an epic is revalued by the ticks of the epic, before callbacks run. -/
def Spec.C88 : Prop := ∀ (env : Env) (w : World) (l : List SetCmd) (e : ℕ) (ep : Epic) (k : Tick), w.Init →
  (w.runSets env l).epics[e]? = some ep → (Spec.localTick ep.zone k).dt.lt ep.lastTick.dt = false →
  (ep.accept (Spec.localTick ep.zone k)).2 = none →
  ∃ w1 : World, (w.runSets env l).onNewTick env e k = execStrategies env e ep.marketOpen (Spec.localTick ep.zone k).dt w1
      (ep.strategies.map Prod.snd) ∧
    ∀ (i : ℕ) (t : Trade), (w.runSets env l).trades[i]? = some t → t.epic = e → 0 < t.openQty → Spec.IsOpen t →
      w1.trades[i]? = some (Spec.repriced t (Spec.localTick ep.zone k))

/-- C88 as long as the provider is not replaced. -/
theorem C88_revalued_partial (env : Env) (w : World) (l : List SetCmd) (hl : ∀ c ∈ l, Spec.SameProvider c) (e : ℕ) (ep : Epic)
    (k : Tick) (hw : w.Init) (hep : (w.runSets env l).epics[e]? = some ep)
    (hacc : (Spec.localTick ep.zone k).dt.lt ep.lastTick.dt = false)
    (hfs : (ep.accept (Spec.localTick ep.zone k)).2 = none) :
    ∃ w1 : World, (w.runSets env l).onNewTick env e k = execStrategies env e ep.marketOpen (Spec.localTick ep.zone k).dt w1
        (ep.strategies.map Prod.snd) ∧
      ∀ (i : ℕ) (t : Trade), (w.runSets env l).trades[i]? = some t → t.epic = e → 0 < t.openQty → Spec.IsOpen t →
        w1.trades[i]? = some (Spec.repriced t (Spec.localTick ep.zone k)) := by
  obtain ⟨h1, h2⟩ := runSets_steps env l hl w (Init.epicsOk hw)
  have hi : RegInv (w.runSets env l) := WSteps.inv (fun a b ha hb => hb.regInv ha) h1 (Init.regInv hw)
  have hp := h2 ep (List.mem_of_getElem? hep)
  obtain ⟨w1, g1, -, -, -, -, -, g2⟩ := before_callbacks hi hep (List.getElem?_eq_getElem hp) env hacc hfs
  refine ⟨w1, g1, fun i t ht he hq ho => ?_⟩
  rw [g2 i t ht]
  obtain ⟨p, pr, h3, h4⟩ := hi.listed i t ht hq
  have h5 := hi.provOf i t p pr ht h3 h4
  unfold World.providerOf at h5
  rw [he, hep] at h5
  simp only [Option.map_some, Option.some.injEq] at h5
  subst h5
  rw [List.getElem?_eq_getElem hp] at h3
  injection h3 with h3
  rw [h3, if_pos ⟨h4, ho⟩]

/-- C88: an empty list of trade days means no trading when assigned, Monday to Friday when given to the constructor. -/
theorem C88_empty_days (ep : Epic) (ref : String) (z : Zone) (o c : ℤ) (h : List ℤ) (p : ℕ) (wall : ℤ) :
    ¬ (Spec.scheduleOf (ep.assign (.tradeDays []))).Open wall ∧
    ((Spec.scheduleOf (Epic.new ref z o c [] h p)).Open wall ↔ Spec.InSession o c [0, 1, 2, 3, 4] h wall) := by
  refine ⟨fun h => ?_, Iff.rfl⟩
  have := h.2.2.1
  simp [Spec.scheduleOf, Epic.assign] at this

end

namespace Demo

/-- The world with a second provider. -/
def twoProviders : World := { world with providers := [Provider.new .backtests, Provider.new .backtests] }

theorem twoProviders_init : twoProviders.Init := by
  refine ⟨?_, world_init.strategies, ?_, rfl, rfl⟩
  · intro e he
    obtain ⟨ref, z, o, c, td, h, p, hp, rfl⟩ := world_init.epics e he
    exact ⟨ref, z, o, c, td, h, p, by simp only [world, List.length_cons, List.length_nil] at hp; simp [twoProviders]; omega, rfl⟩
  · intro p hp
    simp only [twoProviders, List.mem_cons, List.not_mem_nil, or_false] at hp
    rcases hp with rfl | rfl <;> exact ⟨_, rfl⟩

/-- Closing time moved forward during the day, then no trading days, then a new opening time. -/
def settings : List SetCmd :=
  [.cmd (.addFrameSet 0 "UT1" minutes), .cmd (.addIndicator 0 "UT1" ⟨"sma", .sma 2, false⟩), .cmd (.addStrategy 0 0),
    .cmd (.tick 0 (tk 480 10 12)), .assign 0 (.closeTime (479 * minUs)), .cmd (.tick 0 (tk 481 11 13)),
    .assign 0 (.closeTime (500 * minUs)), .cmd (.tick 0 (tk 482 12 14)), .assign 0 (.tradeDays []),
    .cmd (.op (.openTrade 0 (some 0) (some .buy) 1)), .cmd (.tick 0 (tk 483 11 13)), .assign 0 (.openTime 0)]

end Demo

/-- C88, negation of the full claim on trades: when the provider is replaced while a trade is open, later ticks do not revalue the
trade. -/
theorem C88_false : ¬ @Spec.C88 Arith.exact := by
  letI := Arith.exact
  intro h
  obtain ⟨w1, h1, h2⟩ := h Demo.quiet Demo.twoProviders [.cmd (.tick 1 (Demo.tk 480 10 12)),
    .cmd (.op (.openTrade 1 none (some .buy) 1)), .assign 1 (.provider 1)] 1 _ (Demo.tk 481 20 22) Demo.twoProviders_init rfl
    (by decide +kernel) (by decide +kernel)
  have h3 := h2 0 _ rfl (by decide +kernel) (by decide +kernel) (by decide +kernel)
  have h4 := congrArg (fun r : World × Option PyErr => r.1.trades) h1
  have h5 : w1.trades = (execStrategies Demo.quiet 1 true (Spec.localTick Zone.utc (Demo.tk 481 20 22)).dt w1 []).1.trades := rfl
  have h6 := h5.trans h4.symm
  rw [h6] at h3
  exact absurd h3 (by decide +kernel)

section examples

example : letI := Arith.exact
    ((Demo.settings.length == 12) = true) ∧
    ((List.range 13).map fun n => ((Demo.world.runSets Demo.quiet (Demo.settings.take n)).marketOpen 0)) =
      [false, false, false, false, true, true, false, false, true, true, true, false, false] := by
  decide +kernel

example : letI := Arith.exact
    ((Demo.world.runSets Demo.quiet Demo.settings).log.filterMap fun ev => match ev with
      | .notify _ _ cb => some cb
      | _ => none) =
      [.marketOpen, .everyTickOpen, .everyTick, .marketClose, .everyTick, .marketOpen, .everyTickOpen, .everyTick, .marketClose,
        .everyTick] := by
  decide +kernel

example : ∀ c ∈ Demo.settings, Spec.AllHoursCmd c ∧ Spec.SameProvider c := by
  intro c hc
  simp only [Demo.settings, List.mem_cons, List.not_mem_nil, or_false] at hc
  rcases hc with rfl | rfl | rfl | rfl | rfl | rfl | rfl | rfl | rfl | rfl | rfl | rfl <;>
    first
      | exact ⟨trivial, trivial⟩
      | exact ⟨rfl, trivial⟩
      | exact ⟨⟨rfl, by intro p hp; cases hp⟩, trivial⟩

example : letI := Arith.exact
    ((Demo.world.runSets Demo.quiet Demo.settings).trades.map Trade.result) = [-3] ∧
    ((Demo.world.runSets Demo.quiet Demo.settings).epics.map fun ep => ep.frameSets.map fun p => p.2.frames.length) = [[4], []] := by
  decide +kernel

end examples

end Estrade
