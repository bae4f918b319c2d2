import Verif.Lemmas.Feed
import Verif.Lemmas.EpicLog

/-!
# The market side of epics: clock, calendar and frame sets, apart from strategies
-/

set_option linter.unusedSectionVars false
set_option autoImplicit false

namespace Estrade

/-- An epic without its registered strategies. -/
def Epic.front (ep : Epic) : Epic := { ep with strategies := [] }

section
variable [Arith]

/-- Commands on fronts. -/
def frontStep (l : List Epic) : Cmd → List Epic
  | .tick e t => match l[e]? with
    | none => l
    | some ep =>
      if (t.dt.to ep.zone).lt ep.lastTick.dt then l
      else l.set e (ep.accept { t with dt := t.dt.to ep.zone }).1
  | .addFrameSet e ref fs => match l[e]? with
    | none => l
    | some ep => match ep.frameSets.get? ref with
      | some _ => l
      | none => l.set e { ep with frameSets := ep.frameSets.set ref fs }
  | .addIndicator e ref ind => match l[e]? with
    | none => l
    | some ep => match ep.frameSets.get? ref with
      | none => l
      | some fs => l.set e { ep with frameSets := ep.frameSets.set ref (fs.addIndicator ind).1 }
  | .op _ => l
  | .addStrategy _ _ => l

theorem front_get (l : List Epic) (e : ℕ) : (l.map Epic.front)[e]? = (l[e]?).map Epic.front :=
  List.getElem?_map

theorem front_set (l : List Epic) (e : ℕ) (x : Epic) :
    (l.set e x).map Epic.front = (l.map Epic.front).set e x.front := by
  rw [List.map_set]

theorem exec_front (env : Env) (w : World) (c : Cmd) :
    (w.exec env c).1.epics.map Epic.front = frontStep (w.epics.map Epic.front) c := by
  cases c with
  | tick e t =>
    simp only [frontStep, front_get]
    rcases hep : w.epics[e]? with _ | ep
    · simp only [World.exec, World.onNewTick, hep, Option.map_none]
    · simp only [Option.map_some]
      rcases hr : (t.dt.to ep.zone).lt ep.lastTick.dt with _ | _
      · obtain ⟨h1, -⟩ := onNewTick_effect env w e t ep hep hr
        have h1' : (w.exec env (.tick e t)).1.epics = _ := h1
        rw [h1', front_set]
        have : (t.dt.to ep.front.zone).lt ep.front.lastTick.dt = false := hr
        rw [if_neg (by rw [this]; simp)]
        rfl
      · have : (t.dt.to ep.front.zone).lt ep.front.lastTick.dt = true := hr
        rw [if_pos this]
        simp only [World.exec, onNewTick_rejected env w e t ep hep hr]
  | op o =>
    show (w.step o).1.epics.map Epic.front = _
    rw [(step_epics w o).1]; rfl
  | addFrameSet e ref fs =>
    simp only [frontStep, front_get, World.exec, World.addFrameSet]
    rcases hep : w.epics[e]? with _ | ep
    · rfl
    · simp only [Option.map_some]
      have : ep.front.frameSets = ep.frameSets := rfl
      rw [this]
      unfold Epic.addFrameSet
      rcases hg : ep.frameSets.get? ref with _ | g
      · simp only [front_set]; rfl
      · rfl
  | addStrategy e s =>
    simp only [frontStep, World.exec, World.addStrategy]
    rcases hep : w.epics[e]? with _ | ep
    · rfl
    · rcases hs : w.strategies[s]? with _ | st
      · rfl
      · simp only
        split
        · rfl
        · simp only [World.modEpic, World.modStrategy]
          rw [← set_eq_modify _ _ _ _ hep, front_set]
          apply List.ext_getElem?
          intro i
          rw [List.getElem?_set]
          split_ifs with h1 h2
          · subst h1; rw [front_get, hep]; rfl
          · subst h1
            rw [List.getElem?_eq_none (by omega)]
          · rfl
  | addIndicator e ref ind =>
    simp only [frontStep, front_get, World.exec, World.addIndicator]
    rcases hep : w.epics[e]? with _ | ep
    · rfl
    · simp only [Option.map_some]
      have : ep.front.frameSets = ep.frameSets := rfl
      rw [this]
      rcases hg : ep.frameSets.get? ref with _ | g
      · rfl
      · simp only [front_set]; rfl

theorem runCmds_front (env : Env) (l : List Cmd) (w : World) :
    (w.runCmds env l).epics.map Epic.front = l.foldl frontStep (w.epics.map Epic.front) := by
  induction l generalizing w with
  | nil => rfl
  | cons c l ih => rw [runCmds_cons, ih, exec_front]; rfl

/-- A frame set gets the tick when none of those registered before it raises. -/
theorem updateFrameSets_get (c : Ctx) (k : Tick) (d : Dict FrameSet) (ref : String) (fs : FrameSet)
    (h : ∀ p ∈ d.takeWhile (fun p => p.1 != ref), (p.2.feed c k).2 = none)
    (hg : d.get? ref = some fs) : (updateFrameSets c k d).1.get? ref = some (fs.feed c k).1 := by
  induction d with
  | nil => cases hg
  | cons p d ih =>
    obtain ⟨key, x⟩ := p
    rw [Dict.get?_cons] at hg
    unfold updateFrameSets
    by_cases hk : key = ref
    · rw [if_pos hk] at hg
      injection hg with hg
      subst hg
      rcases hx : x.feed c k with ⟨x', _ | err⟩
      · simp only [Dict.get?_cons, if_pos hk]
      · simp only [Dict.get?_cons, if_pos hk]
    · rw [if_neg hk] at hg
      have hk' : (key != ref) = true := by simpa using hk
      simp only [List.takeWhile_cons, hk', if_true, List.mem_cons, forall_eq_or_imp] at h
      rcases hx : x.feed c k with ⟨x', _ | err⟩
      · simp only [Dict.get?_cons, if_neg hk]
        exact ih h.2 hg
      · rw [hx] at h; cases h.1

/-- Each frame set got the tick or was left alone. -/
theorem updateFrameSets_cases (c : Ctx) (k : Tick) (d : Dict FrameSet) (ref : String) (fs' : FrameSet)
    (hg : (updateFrameSets c k d).1.get? ref = some fs') :
    ∃ fs, d.get? ref = some fs ∧ (fs' = fs ∨ fs' = (fs.feed c k).1) := by
  induction d with
  | nil => cases hg
  | cons p d ih =>
    obtain ⟨key, x⟩ := p
    rw [Dict.get?_cons]
    unfold updateFrameSets at hg
    rcases hx : x.feed c k with ⟨x', _ | err⟩
    · rw [hx] at hg
      simp only [Dict.get?_cons] at hg
      split_ifs at hg ⊢ with hk
      · injection hg with hg
        exact ⟨x, rfl, Or.inr (by rw [hx]; exact hg.symm)⟩
      · exact ih hg
    · rw [hx] at hg
      simp only [Dict.get?_cons] at hg
      split_ifs at hg ⊢ with hk
      · injection hg with hg
        exact ⟨x, rfl, Or.inr (by rw [hx]; exact hg.symm)⟩
      · exact ⟨fs', hg, Or.inl rfl⟩

theorem updateFrameSets_keys (c : Ctx) (k : Tick) (d : Dict FrameSet) :
    (updateFrameSets c k d).1.keys = d.keys := by
  induction d with
  | nil => rfl
  | cons p d ih =>
    obtain ⟨key, x⟩ := p
    unfold updateFrameSets
    split
    · rfl
    · simp only [Dict.keys, List.map_cons] at ih ⊢
      rw [ih]

end
end Estrade
