import Verif.SharedSet
import Verif.Lemmas.Dicts
import Verif.Lemmas.EpicFront
import Verif.Props.Frames
import Verif.Props.Epics
import Verif.Demo

/-!
# C86: frame set objects shared between epics
-/

set_option autoImplicit false
set_option linter.style.haveILetI false
set_option linter.unusedSectionVars false

namespace Estrade

section
variable [Arith]

/-! ## Specification -/

/-- Spec: new epics and frame sets, nothing added yet. -/
structure Spec.NewDesk (d : Desk) : Prop where
  epics : ∀ x ∈ d.epics, x.2 = []
  objs : ∀ o ∈ d.objs, o.owner = none ∧ o.fs.heap = [] ∧ o.fs.frames = [] ∧ o.fs.indicators = []

/-- Spec: the frame sets an epic can see. -/
def Spec.setsOf (d : Desk) (r : Dict ℕ) : Dict FrameSet :=
  r.filterMap (fun p => (d.objs[p.2]?).map (fun o => (p.1, o.fs)))

/-- Spec: clock, calendar and frame sets of the epics. -/
def Spec.sides (d : Desk) : List Epic :=
  d.epics.map (fun x => { x.1 with zone := d.zone, frameSets := Spec.setsOf d x.2, strategies := [] })

/-- Spec: a call as a command of a program in which every epic has frame sets of its own. -/
def Spec.asCmd (d : Desk) : DCmd → Option Cmd
  | .tick e t => some (.tick e t)
  | .add e j => (d.objs[j]?).map (fun o => .addFrameSet e o.ref o.fs)
  | .addIndicator j ind => (d.objs[j]?).bind (fun o => o.owner.map (fun e => .addIndicator e o.ref ind))

/-- Spec: a program as a program in which every epic has frame sets of its own. -/
def Spec.asCmds : Desk → List DCmd → List Cmd
  | _, [] => []
  | d, c :: l => (Spec.asCmd d c).toList ++ Spec.asCmds (d.exec c).1 l

/-- Spec: no frame set is added to two epics. -/
def Spec.OneEpic (l : List DCmd) : Prop := ∀ e e' j, DCmd.add e j ∈ l → DCmd.add e' j ∈ l → e = e'

/-- Spec: no call raises. -/
def Spec.Smooth (d : Desk) (l : List DCmd) : Prop :=
  ∀ l₁ c l₂, l = l₁ ++ c :: l₂ → ((d.run l₁).exec c).2 = none

/-- Spec: the ticks given to the epics that hold frame set `j`, in order of arrival; `held` are the epics that hold it. -/
def Spec.merged (z : Zone) (j : ℕ) : List ℕ → List DCmd → List Tick
  | _, [] => []
  | held, .tick e t :: l => if e ∈ held then Spec.localTick z t :: Spec.merged z j held l else Spec.merged z j held l
  | held, .add e j' :: l => Spec.merged z j (if j' = j then e :: held else held) l
  | held, .addIndicator _ _ :: l => Spec.merged z j held l

/-! ## Helpers -/

/-- Dicts hold existing objects under their own references. -/
structure Filed (d : Desk) : Prop where
  entry : ∀ (e : ℕ) (x : Epic × Dict ℕ), d.epics[e]? = some x → ∀ p ∈ x.2, ∃ o, d.objs[p.2]? = some o ∧ o.ref = p.1
  keys : ∀ (e : ℕ) (x : Epic × Dict ℕ), d.epics[e]? = some x → x.2.keys.Nodup

/-- Every object is held by its owner only. -/
structure Owned (d : Desk) : Prop where
  filed : Filed d
  owner : ∀ (e : ℕ) (x : Epic × Dict ℕ), d.epics[e]? = some x → ∀ p ∈ x.2, ∀ o, d.objs[p.2]? = some o → o.owner = some e
  back : ∀ (j : ℕ) (o : SetObj) (e : ℕ), d.objs[j]? = some o → o.owner = some e → ∃ x, d.epics[e]? = some x ∧ (o.ref, j) ∈ x.2

/-- The frame sets behind references. -/
def behind (objs : List SetObj) (r : Dict ℕ) : Dict FrameSet :=
  r.filterMap (fun p => (objs[p.2]?).map (fun o => (p.1, o.fs)))

theorem behind_congr {objs objs' : List SetObj} {r : Dict ℕ}
    (h : ∀ p ∈ r, (objs'[p.2]?).map SetObj.fs = (objs[p.2]?).map SetObj.fs) : behind objs' r = behind objs r := by
  unfold behind
  induction r with
  | nil => rfl
  | cons p r ih =>
    rw [List.filterMap_cons, List.filterMap_cons, ih (fun q hq => h q (List.mem_cons_of_mem _ hq))]
    have := h p List.mem_cons_self
    have e : (objs'[p.2]?).map (fun o => (p.1, o.fs)) = (objs[p.2]?).map (fun o => (p.1, o.fs)) := by
      have h2 := congrArg (Option.map (fun fs => (p.1, fs))) this
      rw [Option.map_map, Option.map_map] at h2
      exact h2
    rw [e]

theorem behind_get (objs : List SetObj) (r : Dict ℕ) (h : ∀ p ∈ r, ∃ o, objs[p.2]? = some o) (k : String) :
    (behind objs r).get? k = (r.get? k).bind (fun j => (objs[j]?).map SetObj.fs) := by
  induction r with
  | nil => rfl
  | cons p r ih =>
    obtain ⟨o, ho⟩ := h p List.mem_cons_self
    have hb : behind objs (p :: r) = (p.1, o.fs) :: behind objs r := by
      unfold behind; rw [List.filterMap_cons, ho]; rfl
    rw [hb, Dict.get?_cons, Dict.get?_cons, ih (fun q hq => h q (List.mem_cons_of_mem _ hq))]
    split_ifs
    · simp [ho]
    · rfl

theorem filed_inj {d : Desk} (H : Filed d) {e : ℕ} {x : Epic × Dict ℕ} (hx : d.epics[e]? = some x) {p q : String × ℕ}
    (hp : p ∈ x.2) (hq : q ∈ x.2) (h : p.2 = q.2) : p = q := by
  obtain ⟨o, h1, h2⟩ := H.entry e x hx p hp
  obtain ⟨o', h3, h4⟩ := H.entry e x hx q hq
  rw [h, h3] at h1
  injection h1 with h1
  exact Prod.ext (by rw [← h2, ← h4, h1]) h

theorem filed_nodup {d : Desk} (H : Filed d) {e : ℕ} {x : Epic × Dict ℕ} (hx : d.epics[e]? = some x) :
    (x.2.map Prod.snd).Nodup := by
  have hk := H.keys e x hx
  have hr : x.2.Nodup := List.Nodup.of_map _ hk
  exact (List.nodup_map_iff_inj_on hr).mpr (fun p hp q hq h => filed_inj H hx hp hq h)

/-! ## Feeding objects -/

theorem feedObjs_kept (z : Zone) (epics : List (Epic × Dict ℕ)) (t : Tick) (r : Dict ℕ) : ∀ objs : List SetObj,
    (feedObjs z epics t objs r).1.map (fun o => (o.ref, o.owner)) = objs.map (fun o => (o.ref, o.owner)) := by
  induction r with
  | nil => intro objs; rfl
  | cons p r ih =>
    intro objs
    obtain ⟨k, j⟩ := p
    unfold feedObjs
    rcases hj : objs[j]? with _ | o
    · rfl
    · simp only
      have hs : ∀ fs', (objs.set j { o with fs := fs' }).map (fun o => (o.ref, o.owner)) =
          objs.map (fun o => (o.ref, o.owner)) := by
        intro fs'
        rw [List.map_set]
        apply List.ext_getElem?
        intro i
        rw [List.getElem?_set]
        split_ifs with h1 h2
        · subst h1; rw [List.getElem?_map, hj]; rfl
        · subst h1; rw [List.getElem?_eq_none (by omega)]
        · rfl
      rcases o.fs.feed (o.ctx z epics) t with ⟨fs', _ | err⟩
      · simp only; rw [ih, hs]
      · exact hs fs'

theorem feedObjs_other (z : Zone) (epics : List (Epic × Dict ℕ)) (t : Tick) (r : Dict ℕ) (i : ℕ)
    (hi : i ∉ r.map Prod.snd) : ∀ objs : List SetObj, (feedObjs z epics t objs r).1[i]? = objs[i]? := by
  induction r with
  | nil => intro objs; rfl
  | cons p r ih =>
    intro objs
    obtain ⟨k, j⟩ := p
    simp only [List.map_cons, List.mem_cons, not_or] at hi
    unfold feedObjs
    rcases hj : objs[j]? with _ | o
    · rfl
    · simp only
      have hs : ∀ fs', (objs.set j { o with fs := fs' })[i]? = objs[i]? := by
        intro fs'; rw [List.getElem?_set_ne (Ne.symm hi.1)]
      rcases o.fs.feed (o.ctx z epics) t with ⟨fs', _ | err⟩
      · simp only; rw [ih hi.2, hs]
      · exact hs fs'

theorem feedObjs_get (z : Zone) (epics : List (Epic × Dict ℕ)) (t : Tick) (r : Dict ℕ) (i : ℕ) (o : SetObj)
    (hn : (r.map Prod.snd).Nodup) (hi : i ∈ r.map Prod.snd) : ∀ objs : List SetObj, objs[i]? = some o →
    (feedObjs z epics t objs r).2 = none →
    (o.fs.feed (o.ctx z epics) t).2 = none ∧
      (feedObjs z epics t objs r).1[i]? = some { o with fs := (o.fs.feed (o.ctx z epics) t).1 } := by
  induction r with
  | nil => cases hi
  | cons p r ih =>
    intro objs ho he
    obtain ⟨k, j⟩ := p
    simp only [List.map_cons, List.nodup_cons] at hn
    unfold feedObjs at he ⊢
    by_cases hij : i = j
    · subst hij
      rw [ho] at he ⊢
      simp only at he ⊢
      rcases hf : o.fs.feed (o.ctx z epics) t with ⟨fs', _ | err⟩
      · simp only
        refine ⟨trivial, ?_⟩
        rw [feedObjs_other _ _ _ _ _ hn.1, List.getElem?_set_self (List.getElem?_eq_some_iff.mp ho).1]
      · rw [hf] at he; cases he
    · simp only [List.map_cons, List.mem_cons, hij, false_or] at hi
      rcases hj : objs[j]? with _ | o'
      · rw [hj] at he; cases he
      · rw [hj] at he
        simp only at he ⊢
        rcases hf : o'.fs.feed (o'.ctx z epics) t with ⟨fs', _ | err⟩
        · rw [hf] at he
          simp only at he ⊢
          exact ih hn.2 hi _ (by rw [List.getElem?_set_ne (Ne.symm hij)]; exact ho) he
        · rw [hf] at he; cases he

theorem feedObjs_own (z : Zone) (epics : List (Epic × Dict ℕ)) (t : Tick) (e : ℕ) (x : Epic × Dict ℕ)
    (hx : epics[e]? = some x) (r : Dict ℕ) (hn : (r.map Prod.snd).Nodup) : ∀ objs : List SetObj,
    (∀ p ∈ r, ∃ o, objs[p.2]? = some o ∧ o.owner = some e) →
    behind (feedObjs z epics t objs r).1 r =
      (updateFrameSets ⟨z, some (x.1.marketOpen, ordOf x.1.lastTick.dt.wall)⟩ t (behind objs r)).1 ∧
    (feedObjs z epics t objs r).2 =
      (updateFrameSets ⟨z, some (x.1.marketOpen, ordOf x.1.lastTick.dt.wall)⟩ t (behind objs r)).2 := by
  induction r with
  | nil => intro objs _; exact ⟨rfl, rfl⟩
  | cons p r ih =>
    intro objs hr
    obtain ⟨k, j⟩ := p
    simp only [List.map_cons, List.nodup_cons] at hn
    obtain ⟨o, ho, hw⟩ := hr (k, j) List.mem_cons_self
    have hctx : o.ctx z epics = ⟨z, some (x.1.marketOpen, ordOf x.1.lastTick.dt.wall)⟩ := by
      unfold SetObj.ctx; rw [hw, Option.bind_some, hx]; rfl
    have hb : ∀ objs' o', objs'[j]? = some o' → behind objs' ((k, j) :: r) = (k, o'.fs) :: behind objs' r := by
      intro objs' o' h; unfold behind; rw [List.filterMap_cons, h]; rfl
    have hset : ∀ o', behind (objs.set j o') r = behind objs r := by
      intro o'
      apply behind_congr
      intro q hq
      rw [List.getElem?_set_ne]
      rintro rfl
      exact hn.1 (List.mem_map_of_mem hq)
    have hlt := (List.getElem?_eq_some_iff.mp ho).1
    rw [hb objs o ho]
    unfold feedObjs updateFrameSets
    rw [ho]
    simp only [hctx]
    rcases hf : o.fs.feed ⟨z, some (x.1.marketOpen, ordOf x.1.lastTick.dt.wall)⟩ t with ⟨fs', _ | err⟩
    · simp only
      obtain ⟨h1, h2⟩ := ih hn.2 (objs.set j { o with fs := fs' }) (by
        intro q hq
        obtain ⟨o', h3, h4⟩ := hr q (List.mem_cons_of_mem _ hq)
        refine ⟨o', ?_, h4⟩
        rw [List.getElem?_set_ne, h3]
        rintro rfl
        exact hn.1 (List.mem_map_of_mem hq))
      have hj : (feedObjs z epics t (objs.set j { o with fs := fs' }) r).1[j]? = some { o with fs := fs' } := by
        rw [feedObjs_other _ _ _ _ _ hn.1, List.getElem?_set_self hlt]
      rw [hb _ _ hj, h1, h2, hset]
      exact ⟨rfl, rfl⟩
    · simp only
      rw [hb _ _ (List.getElem?_set_self hlt), hset]
      exact ⟨rfl, trivial⟩

/-! ## Steps -/

theorem filed_new {d : Desk} (h : Spec.NewDesk d) : Filed d := by
  constructor
  · intro e x hx p hp
    rw [h.epics x (List.mem_of_getElem? hx)] at hp; cases hp
  · intro e x hx
    rw [h.epics x (List.mem_of_getElem? hx)]; exact List.nodup_nil

theorem owned_new {d : Desk} (h : Spec.NewDesk d) : Owned d := by
  refine ⟨filed_new h, ?_, ?_⟩
  · intro e x hx p hp
    rw [h.epics x (List.mem_of_getElem? hx)] at hp; cases hp
  · intro j o e ho hw
    rw [(h.objs o (List.mem_of_getElem? ho)).1] at hw; cases hw

/-- Objects that only differ in their frame sets. -/
theorem label_get {objs objs' : List SetObj}
    (h : objs'.map (fun o => (o.ref, o.owner)) = objs.map (fun o => (o.ref, o.owner))) {j : ℕ} {o : SetObj}
    (ho : objs[j]? = some o) : ∃ o', objs'[j]? = some o' ∧ o'.ref = o.ref ∧ o'.owner = o.owner := by
  have h1 := congrArg (fun l => l[j]?) h
  simp only [List.getElem?_map, ho, Option.map_some] at h1
  obtain ⟨o', h2, h3⟩ := Option.map_eq_some_iff.mp h1
  exact ⟨o', h2, (Prod.mk.inj h3).1, (Prod.mk.inj h3).2⟩

/-- Same dicts, same labels of the objects. -/
structure SameFiles (d d' : Desk) : Prop where
  zone : d'.zone = d.zone
  dicts : d'.epics.map Prod.snd = d.epics.map Prod.snd
  labels : d'.objs.map (fun o => (o.ref, o.owner)) = d.objs.map (fun o => (o.ref, o.owner))

theorem SameFiles.get {d d' : Desk} (h : SameFiles d d') {e : ℕ} {x' : Epic × Dict ℕ} (hx : d'.epics[e]? = some x') :
    ∃ x, d.epics[e]? = some x ∧ x'.2 = x.2 := by
  have h1 := congrArg (fun l => l[e]?) h.dicts
  simp only [List.getElem?_map, hx, Option.map_some] at h1
  obtain ⟨x, h2, h3⟩ := Option.map_eq_some_iff.mp h1.symm
  exact ⟨x, h2, h3.symm⟩

theorem SameFiles.symm {d d' : Desk} (h : SameFiles d d') : SameFiles d' d := ⟨h.zone.symm, h.dicts.symm, h.labels.symm⟩

theorem SameFiles.filed {d d' : Desk} (h : SameFiles d d') (H : Filed d) : Filed d' := by
  constructor
  · intro e x' hx p hp
    obtain ⟨x, h1, h2⟩ := h.get hx
    rw [h2] at hp
    obtain ⟨o, h3, h4⟩ := H.entry e x h1 p hp
    obtain ⟨o', h5, h6, -⟩ := label_get h.labels h3
    exact ⟨o', h5, h6.trans h4⟩
  · intro e x' hx
    obtain ⟨x, h1, h2⟩ := h.get hx
    rw [h2]; exact H.keys e x h1

theorem SameFiles.owned {d d' : Desk} (h : SameFiles d d') (H : Owned d) : Owned d' := by
  refine ⟨h.filed H.filed, ?_, ?_⟩
  · intro e x' hx p hp o' ho
    obtain ⟨x, h1, h2⟩ := h.get hx
    rw [h2] at hp
    obtain ⟨o, h3, -, h5⟩ := label_get h.labels.symm ho
    rw [← h5]; exact H.owner e x h1 p hp o h3
  · intro j o' e ho hw
    obtain ⟨o, h3, h4, h5⟩ := label_get h.labels.symm ho
    obtain ⟨x, h6, h7⟩ := H.back j o e h3 (h5.trans hw)
    obtain ⟨x', h8, h9⟩ := h.symm.get h6
    exact ⟨x', h8, by rw [← h9, ← h4]; exact h7⟩

theorem tick_files (d : Desk) (e : ℕ) (t : Tick) : SameFiles d (d.tick e t).1 := by
  unfold Desk.tick
  rcases he : d.epics[e]? with _ | ⟨ep, r⟩
  · exact ⟨rfl, rfl, rfl⟩
  · simp only
    split
    · exact ⟨rfl, rfl, rfl⟩
    · refine ⟨rfl, ?_, feedObjs_kept _ _ _ _ _⟩
      rw [List.map_set]
      apply List.ext_getElem?
      intro i
      rw [List.getElem?_set]
      split_ifs with h1 h2
      · subst h1; rw [List.getElem?_map, he]; rfl
      · subst h1; rw [List.getElem?_eq_none (by omega)]
      · rfl

theorem addIndicator_files (d : Desk) (j : ℕ) (ind : Indicator) : SameFiles d (d.addIndicator j ind).1 := by
  unfold Desk.addIndicator
  rcases hj : d.objs[j]? with _ | o
  · exact ⟨rfl, rfl, rfl⟩
  · refine ⟨rfl, rfl, ?_⟩
    simp only
    rw [List.map_set]
    apply List.ext_getElem?
    intro i
    rw [List.getElem?_set]
    split_ifs with h1 h2
    · subst h1; rw [List.getElem?_map, hj]; rfl
    · subst h1; rw [List.getElem?_eq_none (by omega)]
    · rfl

/-- What a successful `add_frame_set` does. -/
theorem add_cases (d : Desk) (e j : ℕ) :
    ((d.add e j).1 = d ∧ (d.add e j).2 ≠ none) ∨ ∃ ep r o, d.epics[e]? = some (ep, r) ∧ d.objs[j]? = some o ∧ r.get? o.ref = none ∧
      d.add e j = ({ d with
        epics := d.epics.set e (ep, r ++ [(o.ref, j)])
        objs := d.objs.set j { o with owner := some e } }, none) := by
  unfold Desk.add
  rcases he : d.epics[e]? with _ | ⟨ep, r⟩
  · exact .inl ⟨rfl, by simp⟩
  · rcases hj : d.objs[j]? with _ | o
    · exact .inl ⟨rfl, by simp⟩
    · simp only
      rcases hr : r.get? o.ref with _ | i
      · right
        exact ⟨ep, r, o, rfl, rfl, hr, by rw [Dict.set_new _ _ _ hr]⟩
      · exact .inl ⟨rfl, by simp⟩

theorem add_filed {d : Desk} (H : Filed d) (e j : ℕ) : Filed (d.add e j).1 := by
  rcases add_cases d e j with ⟨h, -⟩ | ⟨ep, r, o, he, hj, hr, h⟩
  · rw [h]; exact H
  · rw [h]
    have hlt := (List.getElem?_eq_some_iff.mp hj).1
    have hget : ∀ (i : ℕ) (o' : SetObj), d.objs[i]? = some o' → ∃ o'', (d.objs.set j { o with owner := some e })[i]? = some o'' ∧
        o''.ref = o'.ref := by
      intro i o' hi
      rw [List.getElem?_set]
      split_ifs with h1
      · subst h1; rw [hj] at hi; injection hi with hi; subst hi; exact ⟨_, rfl, rfl⟩
      · exact ⟨o', hi, rfl⟩
    constructor
    · intro e' x hx p hp
      simp only at hx ⊢
      rw [List.getElem?_set] at hx
      have old : ∀ y, d.epics[e']? = some y → p ∈ y.2 →
          ∃ o', (d.objs.set j { o with owner := some e })[p.2]? = some o' ∧ o'.ref = p.1 := by
        intro y hy hpy
        obtain ⟨o', h1, h2⟩ := H.entry e' y hy p hpy
        obtain ⟨o'', h3, h4⟩ := hget _ _ h1
        exact ⟨o'', h3, h4.trans h2⟩
      split_ifs at hx with h1 h2
      · injection hx with hx
        subst hx
        rcases List.mem_append.mp hp with hp | hp
        · exact old (ep, r) (h1 ▸ he) hp
        · simp only [List.mem_singleton] at hp
          subst hp
          exact ⟨_, List.getElem?_set_self hlt, rfl⟩
      · exact old x hx hp
    · intro e' x hx
      simp only at hx
      rw [List.getElem?_set] at hx
      split_ifs at hx with h1 h2
      · injection hx with hx
        subst hx
        have := Dict.keys_set_nodup r o.ref j (H.keys e _ he)
        rw [Dict.set_new _ _ _ hr] at this
        exact this
      · exact H.keys e' x hx

theorem exec_filed {d : Desk} (H : Filed d) (c : DCmd) : Filed (d.exec c).1 := by
  cases c with
  | tick e t => exact (tick_files d e t).filed H
  | add e j => exact add_filed H e j
  | addIndicator j ind => exact (addIndicator_files d j ind).filed H

theorem add_owned {d : Desk} (H : Owned d) (e j : ℕ) (hw : ∀ o, d.objs[j]? = some o → o.owner = none ∨ o.owner = some e) :
    Owned (d.add e j).1 := by
  refine ⟨add_filed H.filed e j, ?_, ?_⟩
  all_goals rcases add_cases d e j with ⟨h, -⟩ | ⟨ep, r, o, he, hj, hr, h⟩
  · rw [h]; exact H.owner
  · rw [h]
    have hlt := (List.getElem?_eq_some_iff.mp hj).1
    have hno : o.owner = none := by
      rcases hw o hj with h1 | h1
      · exact h1
      · obtain ⟨x, h2, h3⟩ := H.back j o e hj h1
        rw [he] at h2; injection h2 with h2; subst h2
        rw [Dict.get?_of_mem (H.filed.keys e _ he) h3] at hr; cases hr
    intro e' x hx p hp o' ho
    simp only at hx ho
    rw [List.getElem?_set] at hx ho
    by_cases hpj : j = p.2
    · rw [if_pos hpj, if_pos hlt] at ho
      injection ho with ho
      subst ho
      split_ifs at hx with h1 h2
      · simp [h1]
      · have := H.owner e' x hx p hp o (hpj ▸ hj)
        rw [hno] at this; cases this
    · rw [if_neg hpj] at ho
      split_ifs at hx with h1 h2
      · injection hx with hx
        subst hx
        rcases List.mem_append.mp hp with hp | hp
        · subst h1
          exact H.owner e _ he p hp o' ho
        · simp only [List.mem_singleton] at hp
          subst hp
          exact absurd rfl hpj
      · exact H.owner e' x hx p hp o' ho
  · rw [h]; exact H.back
  · rw [h]
    have hlt := (List.getElem?_eq_some_iff.mp hj).1
    have helt := (List.getElem?_eq_some_iff.mp he).1
    intro i o' e' ho hwo
    simp only at ho ⊢
    rw [List.getElem?_set] at ho
    split_ifs at ho with h1
    · injection ho with ho
      subst ho h1
      simp only [Option.some.injEq] at hwo
      subst hwo
      exact ⟨_, List.getElem?_set_self helt, by simp⟩
    · obtain ⟨x, h2, h3⟩ := H.back i o' e' ho hwo
      by_cases hee : e = e'
      · subst hee
        rw [he] at h2; injection h2 with h2; subst h2
        exact ⟨_, List.getElem?_set_self helt, List.mem_append_left _ h3⟩
      · exact ⟨x, by rw [List.getElem?_set_ne hee]; exact h2, h3⟩

/-! ## Epics that share nothing -/

/-- The market side of one epic of a desk. -/
def sideOf (z : Zone) (objs : List SetObj) (x : Epic × Dict ℕ) : Epic :=
  { x.1 with zone := z, frameSets := behind objs x.2, strategies := [] }

theorem sides_get (d : Desk) (e : ℕ) : (Spec.sides d)[e]? = (d.epics[e]?).map (sideOf d.zone d.objs) := by
  unfold Spec.sides; rw [List.getElem?_map]; rfl

theorem tick_sides {d : Desk} (H : Owned d) (e : ℕ) (t : Tick) :
    Spec.sides (d.tick e t).1 = frontStep (Spec.sides d) (.tick e t) := by
  unfold Desk.tick
  simp only [frontStep]
  rw [sides_get]
  rcases he : d.epics[e]? with _ | ⟨ep, r⟩
  · rfl
  · simp only [Option.map_some]
    have hrej : (sideOf d.zone d.objs (ep, r)).lastTick = ep.lastTick := rfl
    have hz : (sideOf d.zone d.objs (ep, r)).zone = d.zone := rfl
    rw [hrej, hz]
    split_ifs with hlt
    · rfl
    · have helt := (List.getElem?_eq_some_iff.mp he).1
      obtain ⟨t', ht'⟩ : ∃ t' : Tick, t' = { t with dt := t.dt.to d.zone } := ⟨_, rfl⟩
      rw [← ht']
      obtain ⟨ep', hep'⟩ : ∃ ep' : Epic, ep' = { ep with lastTick := t', marketOpen := Epic.isMarketOpen { ep with lastTick := t' } } :=
        ⟨_, rfl⟩
      have hown : ∀ p ∈ r, ∃ o, d.objs[p.2]? = some o ∧ o.owner = some e := by
        intro p hp
        obtain ⟨o, h1, -⟩ := H.filed.entry e _ he p hp
        exact ⟨o, h1, H.owner e _ he p hp o h1⟩
      have hx : (d.epics.set e (ep', r))[e]? = some (ep', r) := List.getElem?_set_self helt
      have hfeed := feedObjs_own d.zone (d.epics.set e (ep', r)) t' e (ep', r) hx r (filed_nodup H.filed he) d.objs hown
      have hL : ((ep, r) : Epic × Dict ℕ).1 = ep := rfl
      apply List.ext_getElem?
      intro i
      rw [sides_get, List.getElem?_set]
      simp only
      rw [← hep', List.getElem?_set]
      by_cases hi : e = i
      · subst hi
        rw [if_pos rfl, if_pos rfl, if_pos helt, if_pos (by unfold Spec.sides; rw [List.length_map]; exact helt)]
        simp only [Option.map_some, Option.some.injEq]
        unfold sideOf
        simp only
        rw [hfeed.1]
        subst hep'
        unfold Epic.accept
        simp only
        rfl
      · rw [if_neg hi, if_neg hi, sides_get]
        rcases hy : d.epics[i]? with _ | ⟨epi, ri⟩
        · rfl
        · simp only [Option.map_some, Option.some.injEq]
          unfold sideOf
          simp only
          rw [behind_congr (objs := d.objs)]
          intro p hp
          rw [feedObjs_other]
          intro hmem
          obtain ⟨q, hq, hqp⟩ := List.mem_map.mp hmem
          obtain ⟨o, h1, h2⟩ := hown q hq
          rw [hqp] at h1
          have h3 := H.owner i _ hy p hp o h1
          rw [h2] at h3
          injection h3 with h3
          exact hi h3

theorem add_sides {d : Desk} (H : Owned d) (e j : ℕ) (o : SetObj) (hj : d.objs[j]? = some o) :
    Spec.sides (d.add e j).1 = frontStep (Spec.sides d) (.addFrameSet e o.ref o.fs) := by
  simp only [frontStep]
  rw [sides_get]
  unfold Desk.add
  rw [hj]
  rcases he : d.epics[e]? with _ | ⟨ep, r⟩
  · rfl
  · simp only [Option.map_some]
    have hpres : ∀ p ∈ r, ∃ o, d.objs[p.2]? = some o := fun p hp => by
      obtain ⟨o', h1, -⟩ := H.filed.entry e _ he p hp; exact ⟨o', h1⟩
    have hg : (sideOf d.zone d.objs (ep, r)).frameSets.get? o.ref = (r.get? o.ref).bind (fun j => (d.objs[j]?).map SetObj.fs) :=
      behind_get d.objs r hpres o.ref
    rw [hg]
    rcases hr : r.get? o.ref with _ | i
    · simp only [Option.bind_none]
      have helt := (List.getElem?_eq_some_iff.mp he).1
      have hlt := (List.getElem?_eq_some_iff.mp hj).1
      have hfs : ∀ i : ℕ, ((d.objs.set j { o with owner := some e })[i]?).map SetObj.fs = (d.objs[i]?).map SetObj.fs := by
        intro i
        rw [List.getElem?_set]
        split_ifs with h1
        · subst h1; rw [hj]; rfl
        · rfl
      apply List.ext_getElem?
      intro i
      rw [sides_get, List.getElem?_set]
      simp only
      rw [List.getElem?_set]
      by_cases hi : e = i
      · subst hi
        rw [if_pos rfl, if_pos rfl, if_pos helt, if_pos (by unfold Spec.sides; rw [List.length_map]; exact helt)]
        simp only [Option.map_some, Option.some.injEq]
        unfold sideOf
        simp only
        rw [behind_congr (fun p _ => hfs p.2)]
        have h1 : (behind d.objs r).get? o.ref = none := by rw [behind_get d.objs r hpres, hr]; rfl
        rw [Dict.set_new _ _ _ hr, Dict.set_new _ _ _ h1]
        have : behind d.objs (r ++ [(o.ref, j)]) = behind d.objs r ++ [(o.ref, o.fs)] := by
          unfold behind
          rw [List.filterMap_append]
          simp [hj]
        rw [this]
      · rw [if_neg hi, if_neg hi, sides_get]
        rcases d.epics[i]? with _ | ⟨epi, ri⟩
        · rfl
        · simp only [Option.map_some, Option.some.injEq]
          unfold sideOf
          simp only
          rw [behind_congr (fun p _ => hfs p.2)]
    · obtain ⟨o', ho'⟩ := hpres _ (Dict.mem_of_get? hr)
      simp only at ho'
      simp only [Option.bind_some, ho', Option.map_some]

theorem behind_set {d : Desk} (H : Filed d) {e : ℕ} {x : Epic × Dict ℕ} (hx : d.epics[e]? = some x) {j : ℕ} {o : SetObj}
    (hj : d.objs[j]? = some o) (hm : (o.ref, j) ∈ x.2) (fs : FrameSet) :
    behind (d.objs.set j { o with fs := fs }) x.2 = (behind d.objs x.2).set o.ref fs := by
  have hlt := (List.getElem?_eq_some_iff.mp hj).1
  have hpres : ∀ p ∈ x.2, ∃ o, d.objs[p.2]? = some o := fun p hp => by
    obtain ⟨o', h1, -⟩ := H.entry e _ hx p hp; exact ⟨o', h1⟩
  have hg : (behind d.objs x.2).get? o.ref = some o.fs := by
    rw [behind_get d.objs x.2 hpres, Dict.get?_of_mem (H.keys e x hx) hm]; simp [hj]
  have hany : (behind d.objs x.2).any (fun p => p.1 == o.ref) = true := by
    rw [Dict.any_key, ← Dict.get?_isSome]; exact ⟨_, hg⟩
  unfold Dict.set
  rw [if_pos hany]
  unfold behind
  rw [List.map_filterMap]
  apply List.filterMap_congr
  intro p hp
  by_cases hpj : p.2 = j
  · have h1 := filed_inj H hx hp hm hpj
    subst h1
    simp only
    rw [List.getElem?_set_self hlt, hj]
    simp
  · obtain ⟨o', ho', hr'⟩ := H.entry e x hx p hp
    rw [List.getElem?_set_ne (Ne.symm hpj), ho']
    have : p.1 ≠ o.ref := by
      intro h1
      have h2 := Dict.get?_of_mem (H.keys e x hx) hm
      have h3 : x.2.get? p.1 = some p.2 := Dict.get?_of_mem (H.keys e x hx) hp
      rw [h1, h2] at h3
      injection h3 with h3
      exact hpj h3.symm
    simp [this]

theorem addIndicator_sides {d : Desk} (H : Owned d) (j : ℕ) (ind : Indicator) (o : SetObj) (hj : d.objs[j]? = some o)
    (w : Option ℕ) (hw : o.owner = w) : Spec.sides (d.addIndicator j ind).1 = match w with
      | none => Spec.sides d
      | some e => frontStep (Spec.sides d) (.addIndicator e o.ref ind) := by
  have hother : ∀ i x, d.epics[i]? = some x → o.owner ≠ some i →
      behind (d.objs.set j { o with fs := (o.fs.addIndicator ind).1 }) x.2 = behind d.objs x.2 := by
    intro i x hx hne
    apply behind_congr
    intro p hp
    rw [List.getElem?_set_ne]
    intro h1
    exact hne (H.owner i x hx p hp o (h1 ▸ hj))
  unfold Desk.addIndicator
  rw [hj]
  simp only
  rcases w with _ | e
  · simp only
    apply List.ext_getElem?
    intro i
    rw [sides_get, sides_get]
    rcases hx : d.epics[i]? with _ | x
    · rfl
    · simp only [Option.map_some, Option.some.injEq]
      unfold sideOf
      rw [hother i x hx (by rw [hw]; simp)]
  · simp only
    obtain ⟨x, hx, hm⟩ := H.back j o e hj hw
    simp only [frontStep]
    rw [sides_get, hx]
    simp only [Option.map_some]
    have hpres : ∀ p ∈ x.2, ∃ o, d.objs[p.2]? = some o := fun p hp => by
      obtain ⟨o', h1, -⟩ := H.filed.entry e _ hx p hp; exact ⟨o', h1⟩
    have hg : (sideOf d.zone d.objs x).frameSets.get? o.ref = some o.fs := by
      show (behind d.objs x.2).get? o.ref = _
      rw [behind_get d.objs x.2 hpres, Dict.get?_of_mem (H.filed.keys e x hx) hm]; simp [hj]
    rw [hg]
    simp only
    have helt := (List.getElem?_eq_some_iff.mp hx).1
    apply List.ext_getElem?
    intro i
    rw [sides_get, List.getElem?_set]
    by_cases hi : e = i
    · subst hi
      rw [if_pos rfl, if_pos (by unfold Spec.sides; rw [List.length_map]; exact helt), hx]
      simp only [Option.map_some, Option.some.injEq]
      unfold sideOf
      rw [behind_set H.filed hx hj hm]
    · rw [if_neg hi, sides_get]
      rcases hy : d.epics[i]? with _ | y
      · rfl
      · simp only [Option.map_some, Option.some.injEq]
        unfold sideOf
        rw [hother i y hy (by rw [hw]; simpa using hi)]

theorem add_owner (d : Desk) (e j i : ℕ) (o : SetObj) (h : (d.add e j).1.objs[i]? = some o) :
    ∃ o', d.objs[i]? = some o' ∧ o'.ref = o.ref ∧ o'.fs = o.fs ∧ (o.owner = o'.owner ∨ i = j ∧ o.owner = some e) := by
  rcases add_cases d e j with ⟨h1, -⟩ | ⟨ep, r, x, he, hj, hr, h1⟩
  · rw [h1] at h; exact ⟨o, h, rfl, rfl, .inl rfl⟩
  · rw [h1] at h
    simp only at h
    rw [List.getElem?_set] at h
    split_ifs at h with h2
    · injection h with h
      subst h h2
      exact ⟨x, hj, rfl, rfl, .inr ⟨rfl, rfl⟩⟩
    · exact ⟨o, h, rfl, rfl, .inl rfl⟩

theorem separate_front (l : List DCmd) : ∀ d : Desk, Owned d → Spec.OneEpic l →
    (∀ (j : ℕ) (o : SetObj) (e e' : ℕ), d.objs[j]? = some o → o.owner = some e → .add e' j ∈ l → e' = e) →
    (Spec.asCmds d l).foldl frontStep (Spec.sides d) = Spec.sides (d.run l) := by
  induction l with
  | nil => intro d _ _ _; rfl
  | cons c l ih =>
    intro d H h1 h2
    have h1' : Spec.OneEpic l := fun e e' j ha hb => h1 e e' j (List.mem_cons_of_mem _ ha) (List.mem_cons_of_mem _ hb)
    have hrun : d.run (c :: l) = (d.exec c).1.run l := rfl
    rw [hrun, Spec.asCmds, List.foldl_append]
    cases c with
    | tick e t =>
      have hs : (Spec.asCmd d (.tick e t)).toList.foldl frontStep (Spec.sides d) = Spec.sides (d.tick e t).1 := (tick_sides H e t).symm
      rw [hs]
      refine ih _ ((tick_files d e t).owned H) h1' ?_
      intro j o e1 e' ho hw hm
      obtain ⟨o', h3, -, h5⟩ := label_get (tick_files d e t).labels.symm ho
      exact h2 j o' e1 e' h3 (h5.trans hw) (List.mem_cons_of_mem _ hm)
    | addIndicator j ind =>
      have hs : (Spec.asCmd d (.addIndicator j ind)).toList.foldl frontStep (Spec.sides d) =
          Spec.sides (d.addIndicator j ind).1 := by
        rcases hj : d.objs[j]? with _ | o
        · simp only [Spec.asCmd, Desk.addIndicator, hj]; rfl
        · rcases hw : o.owner with _ | e
          · rw [addIndicator_sides H j ind o hj none hw]
            simp only [Spec.asCmd, hj, Option.bind_some, hw]; rfl
          · rw [addIndicator_sides H j ind o hj (some e) hw]
            simp only [Spec.asCmd, hj, Option.bind_some, hw]; rfl
      rw [hs]
      refine ih _ ((addIndicator_files d j ind).owned H) h1' ?_
      intro i o e1 e' ho hw hm
      obtain ⟨o', h3, -, h5⟩ := label_get (addIndicator_files d j ind).labels.symm ho
      exact h2 i o' e1 e' h3 (h5.trans hw) (List.mem_cons_of_mem _ hm)
    | add e j =>
      have hs : (Spec.asCmd d (.add e j)).toList.foldl frontStep (Spec.sides d) = Spec.sides (d.add e j).1 := by
        rcases hj : d.objs[j]? with _ | o
        · simp only [Spec.asCmd, Desk.add, hj]
          rcases d.epics[e]? with _ | ⟨ep, r⟩ <;> rfl
        · rw [add_sides H e j o hj]; simp only [Spec.asCmd, hj]; rfl
      rw [hs]
      refine ih _ (add_owned H e j ?_) h1' ?_
      · intro o ho
        rcases hw : o.owner with _ | e1
        · exact .inl rfl
        · rw [h2 j o e1 e ho hw List.mem_cons_self]; exact .inr rfl
      · intro i o e1 e' ho hw hm
        obtain ⟨o', h3, -, -, h5⟩ := add_owner d e j i o ho
        rcases h5 with h5 | ⟨rfl, h5⟩
        · exact h2 i o' e1 e' h3 (h5.symm.trans hw) (List.mem_cons_of_mem _ hm)
        · rw [h5] at hw
          injection hw with hw
          subst hw
          exact h1 e' e i (List.mem_cons_of_mem _ hm) List.mem_cons_self

/-! ## Epics that share -/

theorem smooth_cons {d : Desk} {c : DCmd} {l : List DCmd} :
    Spec.Smooth d (c :: l) ↔ (d.exec c).2 = none ∧ Spec.Smooth (d.exec c).1 l := by
  constructor
  · intro h
    refine ⟨h [] c l rfl, ?_⟩
    intro l₁ c' l₂ e
    exact h (c :: l₁) c' l₂ (by rw [e]; rfl)
  · rintro ⟨h1, h2⟩ l₁ c' l₂ e
    cases l₁ with
    | nil => simp only [List.nil_append, List.cons.injEq] at e; obtain ⟨rfl, rfl⟩ := e; exact h1
    | cons a l₁ =>
      simp only [List.cons_append, List.cons.injEq] at e
      obtain ⟨rfl, e⟩ := e
      exact h2 l₁ c' l₂ e

theorem smooth_nil (d : Desk) : Spec.Smooth d [] := by
  intro l₁ c l₂ e; cases l₁ <;> cases e

theorem merged_feeds (l : List DCmd) (j : ℕ) (u : Unit') (q m : ℤ) : ∀ (d : Desk) (held : List ℕ) (o : SetObj) (h : List HEv),
    Filed d → Spec.Smooth d l → d.objs[j]? = some o → Feeds u q m o.fs h →
    (∀ e, e ∈ held ↔ ∃ x, d.epics[e]? = some x ∧ j ∈ x.2.map Prod.snd) →
    ∃ o' h', (d.run l).objs[j]? = some o' ∧ o'.ref = o.ref ∧ Feeds u q m o'.fs (h ++ h') ∧
      h'.map HEv.tick = Spec.merged d.zone j held l ∧ ∀ x ∈ h', x.ctx.zone = d.zone := by
  induction l with
  | nil => intro d held o h _ _ ho hF _; exact ⟨o, [], ho, rfl, by simpa using hF, rfl, by simp⟩
  | cons c l ih =>
    intro d held o h H hs ho hF hheld
    obtain ⟨hs1, hs2⟩ := smooth_cons.mp hs
    have hrun : d.run (c :: l) = (d.exec c).1.run l := rfl
    rw [hrun]
    have H' := exec_filed H c
    cases c with
    | tick e t =>
      have hfiles := tick_files d e t
      have hheld' : ∀ e', e' ∈ held ↔ ∃ x, (d.tick e t).1.epics[e']? = some x ∧ j ∈ x.2.map Prod.snd := by
        intro e'
        rw [hheld]
        constructor
        · rintro ⟨x, h1, h2⟩
          obtain ⟨x', h3, h4⟩ := hfiles.symm.get h1
          exact ⟨x', h3, by rw [← h4]; exact h2⟩
        · rintro ⟨x, h1, h2⟩
          obtain ⟨x', h3, h4⟩ := hfiles.get h1
          exact ⟨x', h3, by rw [← h4]; exact h2⟩
      change (d.tick e t).2 = none at hs1
      change Spec.Smooth (d.tick e t).1 l at hs2
      rw [show Spec.merged d.zone j held (.tick e t :: l) =
        if e ∈ held then Spec.localTick d.zone t :: Spec.merged d.zone j held l else Spec.merged d.zone j held l from rfl]
      have hz : (d.tick e t).1.zone = d.zone := hfiles.zone
      -- the tick in detail
      obtain ⟨⟨ep, r⟩, he⟩ : ∃ x, d.epics[e]? = some x := by
        rcases he : d.epics[e]? with _ | x
        · unfold Desk.tick at hs1; rw [he] at hs1; cases hs1
        · exact ⟨x, rfl⟩
      obtain ⟨epics, hepics⟩ : ∃ epics : List (Epic × Dict ℕ), (d.tick e t).1.objs =
          (feedObjs d.zone epics (Spec.localTick d.zone t) d.objs r).1 ∧
          (feedObjs d.zone epics (Spec.localTick d.zone t) d.objs r).2 = none := by
        unfold Desk.tick at hs1 ⊢
        rw [he] at hs1 ⊢
        simp only at hs1 ⊢
        split_ifs at hs1 ⊢
        exact ⟨_, rfl, hs1⟩
      split_ifs with hin
      · obtain ⟨x, h1, h2⟩ := (hheld e).mp hin
        rw [he] at h1
        injection h1 with h1
        subst h1
        obtain ⟨h3, h4⟩ := feedObjs_get d.zone epics (Spec.localTick d.zone t) r j o (filed_nodup H he) h2 d.objs ho hepics.2
        rw [← hepics.1] at h4
        have hok := (feed_agrees o.fs (o.ctx d.zone epics) (Spec.localTick d.zone t)).ok h3
        obtain ⟨o', h', g1, g2, g3, g4, g5⟩ := ih (d.tick e t).1 held _ _ H' hs2 h4 (Feeds.tick _ _ hF hok) hheld'
        refine ⟨o', ⟨o.ctx d.zone epics, Spec.localTick d.zone t, o.fs.indicators⟩ :: h', g1, g2, ?_, ?_, ?_⟩
        · rw [List.append_assoc] at g3; exact g3
        · rw [List.map_cons, g4, hz]
        · intro x hx
          rcases List.mem_cons.mp hx with rfl | hx
          · rfl
          · rw [← hz]; exact g5 x hx
      · have hno : j ∉ r.map Prod.snd := fun hm => hin ((hheld e).mpr ⟨_, he, hm⟩)
        have h4 : (d.tick e t).1.objs[j]? = some o := by
          rw [hepics.1, feedObjs_other _ _ _ _ _ hno]; exact ho
        obtain ⟨o', h', g1, g2, g3, g4, g5⟩ := ih (d.tick e t).1 held _ _ H' hs2 h4 hF hheld'
        exact ⟨o', h', g1, g2, g3, by rw [g4, hz], by rw [← hz]; exact g5⟩
    | addIndicator i ind =>
      have hfiles := addIndicator_files d i ind
      have hheld' : ∀ e', e' ∈ held ↔ ∃ x, (d.addIndicator i ind).1.epics[e']? = some x ∧ j ∈ x.2.map Prod.snd := by
        intro e'
        rw [hheld]
        constructor
        · rintro ⟨x, h1, h2⟩
          obtain ⟨x', h3, h4⟩ := hfiles.symm.get h1
          exact ⟨x', h3, by rw [← h4]; exact h2⟩
        · rintro ⟨x, h1, h2⟩
          obtain ⟨x', h3, h4⟩ := hfiles.get h1
          exact ⟨x', h3, by rw [← h4]; exact h2⟩
      have hz : (d.addIndicator i ind).1.zone = d.zone := hfiles.zone
      obtain ⟨o1, ho1, hr1, hF1⟩ : ∃ o1, (d.addIndicator i ind).1.objs[j]? = some o1 ∧ o1.ref = o.ref ∧ Feeds u q m o1.fs h := by
        unfold Desk.addIndicator
        rcases hi : d.objs[i]? with _ | oi
        · exact ⟨o, ho, rfl, hF⟩
        · simp only
          rw [List.getElem?_set]
          split_ifs with h1 h2
          · subst h1
            rw [ho] at hi; injection hi with hi; subst hi
            exact ⟨_, rfl, rfl, Feeds.ind ind hF⟩
          · subst h1
            exact absurd (List.getElem?_eq_some_iff.mp hi).1 h2
          · exact ⟨o, ho, rfl, hF⟩
      obtain ⟨o', h', g1, g2, g3, g4, g5⟩ := ih (d.addIndicator i ind).1 held o1 h H' hs2 ho1 hF1 hheld'
      exact ⟨o', h', g1, g2.trans hr1, g3, by rw [g4, hz]; rfl, by rw [← hz]; exact g5⟩
    | add e i =>
      change (d.add e i).2 = none at hs1
      rcases add_cases d e i with ⟨-, h1⟩ | ⟨ep, r, oi, he, hi, hr, h1⟩
      · exact absurd hs1 h1
      have hlt := (List.getElem?_eq_some_iff.mp hi).1
      have helt := (List.getElem?_eq_some_iff.mp he).1
      have hz : (d.add e i).1.zone = d.zone := by rw [h1]
      have hheld' : ∀ e', e' ∈ (if i = j then e :: held else held) ↔
          ∃ x, (d.add e i).1.epics[e']? = some x ∧ j ∈ x.2.map Prod.snd := by
        intro e'
        rw [h1]
        simp only
        rw [List.getElem?_set]
        by_cases hee : e = e'
        · subst hee
          rw [if_pos rfl, if_pos helt]
          simp only [Option.some.injEq, exists_eq_left', List.map_append, List.map_cons, List.map_nil, List.mem_append,
            List.mem_singleton]
          have := hheld e
          rw [he] at this
          simp only [Option.some.injEq, exists_eq_left'] at this
          split_ifs with hij
          · simp [hij]
          · rw [this]
            constructor
            · exact .inl
            · rintro (h2 | h2)
              · exact h2
              · exact absurd h2.symm hij
        · rw [if_neg hee, ← hheld e']
          split_ifs
          · simp [Ne.symm hee]
          · rfl
      obtain ⟨o1, ho1, hr1, hF1⟩ : ∃ o1, (d.add e i).1.objs[j]? = some o1 ∧ o1.ref = o.ref ∧ o1.fs = o.fs := by
        rw [h1]
        simp only
        rw [List.getElem?_set]
        split_ifs with h2
        · subst h2
          rw [ho] at hi; injection hi with hi; subst hi
          exact ⟨_, rfl, rfl, rfl⟩
        · exact ⟨o, ho, rfl, rfl⟩
      obtain ⟨o', h', g1, g2, g3, g4, g5⟩ := ih (d.add e i).1 (if i = j then e :: held else held) o1 h H' hs2 ho1
        (by rw [hF1]; exact hF) hheld'
      exact ⟨o', h', g1, g2.trans hr1, g3, by rw [g4, hz]; rfl, by rw [← hz]; exact g5⟩

/-! ## C86 -/

/-- C86: frame sets that are added to one epic each behave as frame sets of their own: whatever the strategies and callbacks,
clock, calendar and frame sets of every epic are those of the program in which `add_frame_set` stores a copy. -/
theorem C86_separate (env : Env) (w : World) (d : Desk) (hd : Spec.NewDesk d) (l : List DCmd) (hl : Spec.OneEpic l)
    (hw : w.epics.map Spec.marketSide = Spec.sides d) :
    (w.runCmds env (Spec.asCmds d l)).epics.map Spec.marketSide = Spec.sides (d.run l) := by
  have e1 : Spec.marketSide = Epic.front := rfl
  rw [e1] at hw ⊢
  rw [runCmds_front, hw]
  refine separate_front l d (owned_new hd) hl ?_
  intro j o e e' ho hwo
  rw [(hd.objs o (List.mem_of_getElem? ho)).1] at hwo; cases hwo

/-- C86: a frame set shared by several epics has lived through the ticks of all of them, merged in the order of their
arrival, none lost and none twice: every theorem about the life of a frame set applies to it.  (No call raises.) -/
theorem C86_merged (d : Desk) (hd : Spec.NewDesk d) (l : List DCmd) (hs : Spec.Smooth d l) (j : ℕ) (o : SetObj)
    (ho : d.objs[j]? = some o) :
    ∃ o' h, (d.run l).objs[j]? = some o' ∧ o'.ref = o.ref ∧ Feeds o.fs.unit o.fs.qty o.fs.maxFrames o'.fs h ∧
      h.map HEv.tick = Spec.merged d.zone j [] l ∧ ∀ x ∈ h, x.ctx.zone = d.zone := by
  obtain ⟨-, h2, h3, h4⟩ := hd.objs o (List.mem_of_getElem? ho)
  have hF : Feeds o.fs.unit o.fs.qty o.fs.maxFrames o.fs [] := by
    have : o.fs = ⟨o.fs.unit, o.fs.qty, o.fs.maxFrames, [], [], []⟩ := by
      rcases hfs : o.fs with ⟨u, q, m, hp, fr, ix⟩
      rw [hfs] at h2 h3 h4
      simp only at h2 h3 h4
      rw [h2, h3, h4]
    rw [this]
    exact Feeds.new
  obtain ⟨o', h', g1, g2, g3, g4, g5⟩ := merged_feeds l j _ _ _ d [] o [] (filed_new hd) hs ho hF (by
    intro e
    constructor
    · intro h; cases h
    · rintro ⟨x, hx, hm⟩
      rw [hd.epics x (List.mem_of_getElem? hx)] at hm; cases hm)
  exact ⟨o', h', g1, g2, by simpa using g3, g4, g5⟩

/-- Spec: the full claim: the latest tick of a shared timed frame set lies in the period of its current frame. -/
def Spec.C86 : Prop := ∀ (d : Desk) (l : List DCmd) (j : ℕ) (o o' : SetObj) (t : Tick), Spec.NewDesk d → Spec.Smooth d l →
  d.objs[j]? = some o → Spec.Accepted o.fs.unit o.fs.qty → 1 ≤ o.fs.maxFrames → (∀ x, x ≤ d.zone.resolve x) →
  (d.run l).objs[j]? = some o' → (Spec.merged d.zone j [] l).getLast? = some t →
  ∃ f, o'.fs.view.getLast? = some f ∧ f.last = t ∧ f.periodStart ≤ t.dt.wall ∧ ∃ pe, f.periodEnd = some pe ∧ t.dt.wall < pe

/-- C86, partial: the claim holds when the merged ticks are in order.  (Each epic only sees to the order of its own ticks,
`C86_false`.) -/
theorem C86_in_order_partial (d : Desk) (l : List DCmd) (j : ℕ) (o o' : SetObj) (t : Tick) (hd : Spec.NewDesk d)
    (hs : Spec.Smooth d l) (ho : d.objs[j]? = some o) (ha : Spec.Accepted o.fs.unit o.fs.qty) (hm : 1 ≤ o.fs.maxFrames)
    (hz : ∀ x, x ≤ d.zone.resolve x) (ho' : (d.run l).objs[j]? = some o')
    (ht : (Spec.merged d.zone j [] l).getLast? = some t)
    (hord : (Spec.merged d.zone j [] l).Pairwise (fun a b => a.dt.wall ≤ b.dt.wall)) :
    ∃ f, o'.fs.view.getLast? = some f ∧ f.last = t ∧ f.periodStart ≤ t.dt.wall ∧
      ∃ pe, f.periodEnd = some pe ∧ t.dt.wall < pe := by
  obtain ⟨o1, h, g1, -, g3, g4, g5⟩ := C86_merged d hd l hs j o ho
  rw [ho'] at g1
  injection g1 with g1
  subst g1
  rw [← g4] at ht hord
  rcases List.eq_nil_or_concat h with rfl | ⟨h0, e, rfl⟩
  · cases ht
  · rw [List.concat_eq_append] at *
    rw [List.map_append, List.map_cons, List.map_nil, List.getLast?_concat] at ht
    injection ht with ht
    subst ht
    have hord' : Spec.InOrder (h0 ++ [e]) := List.pairwise_map (f := HEv.tick) |>.mp hord
    exact C07_tick_in_current_frame _ _ _ ha hm o'.fs h0 e g3 hord'
      (fun x hx y => by rw [g5 x hx]; exact hz y)

end

namespace Demo

/-- Two epics (08:00-16:00 and 00:00-23:00, UTC) and three frame sets: minutes, five ticks, minutes. -/
def desk : Desk :=
  ⟨Zone.utc, [(Epic.new "E0" Zone.utc (8 * hourUs) (16 * hourUs) [] [] 0, []), (Epic.new "E1" Zone.utc 0 (23 * hourUs) [] [] 0, [])],
   [⟨"UT1", minutes, none⟩, ⟨"TICK5", ⟨.tick, 5, 10, [], [], []⟩, none⟩, ⟨"UT1", minutes, none⟩]⟩

theorem desk_new : Spec.NewDesk desk := by
  refine ⟨?_, ?_⟩
  · intro x hx
    simp only [desk, List.mem_cons, List.not_mem_nil, or_false] at hx
    rcases hx with rfl | rfl <;> rfl
  · intro o ho
    simp only [desk, List.mem_cons, List.not_mem_nil, or_false] at ho
    rcases ho with rfl | rfl | rfl <;> exact ⟨rfl, rfl, rfl, rfl⟩

/-- Frame set 0 on both epics; the ticks of epic 1 come late. -/
def lateDesk : List DCmd := [.add 0 0, .add 1 0, .tick 0 (tk 485 10 12), .tick 1 (tk 480 11 13)]

/-- Frame set 0 on both epics; ticks in order. -/
def orderedDesk : List DCmd :=
  [.add 0 0, .addIndicator 0 ⟨"HA", .heikin, false⟩, .tick 0 (tk 480 10 12), .add 1 0, .tick 1 (tk 480 11 13), .tick 0 (tk 482 9 11)]

/-- A frame set for each epic (the same reference), and one added twice to epic 0. -/
def ownDesk : List DCmd :=
  [.add 0 0, .add 1 2, .add 0 0, .addIndicator 2 ⟨"HA", .heikin, false⟩, .tick 0 (tk 480 10 12), .tick 1 (tk 481 11 13),
    .tick 0 (tk 481 9 11), .tick 0 (tk 470 9 11)]

end Demo

/-- C86, negation of the full claim: two epics share a frame set of minutes; a tick of 08:05 of the one, then a tick of
08:00 of the other.  No call raises, and the tick of 08:00 goes into the frame of 08:05. -/
theorem C86_false : ¬ @Spec.C86 Arith.exact := by
  letI := Arith.exact
  intro h
  have hs : Spec.Smooth Demo.desk Demo.lateDesk :=
    smooth_cons.mpr ⟨by decide +kernel, smooth_cons.mpr ⟨by decide +kernel, smooth_cons.mpr ⟨by decide +kernel,
      smooth_cons.mpr ⟨by decide +kernel, smooth_nil _⟩⟩⟩⟩
  obtain ⟨o', ho'⟩ : ∃ o', (Demo.desk.run Demo.lateDesk).objs[0]? = some o' :=
    Option.isSome_iff_exists.mp (by decide +kernel)
  obtain ⟨f, h1, -, h3, -⟩ := h Demo.desk Demo.lateDesk 0 ⟨"UT1", Demo.minutes, none⟩ o' (Demo.tk 480 11 13) Demo.desk_new hs rfl
    (show Spec.Accepted .minute 1 by unfold Spec.Accepted; decide) (by decide) (fun _ => le_refl _) ho' (by decide +kernel)
  have h4 : (((Demo.desk.run Demo.lateDesk).objs[0]?).bind (fun o => o.fs.view.getLast?)).map Frame.periodStart =
      some (Demo.monday + 485 * minUs) := by decide +kernel
  rw [ho', Option.bind_some, h1] at h4
  injection h4 with h4
  rw [h4] at h3
  exact absurd h3 (by decide +kernel)

/-- C86, the market state: an indicator "market open only" in a shared frame set asks the epic the frame set was added to
last.  The tick of 07:59 of epic 0 (closed until 08:00) opens a frame whose indicator has a value, as epic 1 is open;
in a frame set of its own there is none. -/
theorem C86_market : letI := Arith.exact
    let l := [.addIndicator 0 ⟨"HA", .heikin, true⟩, .add 0 0, .add 1 0, .tick 1 (Demo.tk 477 10 12), .tick 0 (Demo.tk 479 10 12)]
    let l' := [.addIndicator 0 ⟨"HA", .heikin, true⟩, .add 0 0, .tick 1 (Demo.tk 477 10 12), .tick 0 (Demo.tk 479 10 12)]
    let val (d : Desk) := (d.objs[0]?).bind (fun o => o.fs.view.getLast?.bind (fun f => (f.get "HA").map (fun v => v.last)))
    (((Demo.desk.run l).epics[0]?).map (fun x => x.1.marketOpen) = some false) ∧
    val (Demo.desk.run l) = some (Demo.tk 479 10 12) ∧ val (Demo.desk.run l') = none := by
  decide +kernel

/-- C86, the day rule: a frame set of five ticks added to epic 1 last starts a frame at every tick of epic 0 while the last
tick of epic 1 is of an earlier day; in a frame set of its own there is one frame. -/
theorem C86_day_split : letI := Arith.exact
    let l := [.add 0 1, .add 1 1, .tick 1 (Demo.tk (-600) 10 12), .tick 0 (Demo.tk 480 10 12), .tick 0 (Demo.tk 481 10 12), .tick 0 (Demo.tk 482 10 12)]
    let l' := [.add 0 1, .tick 1 (Demo.tk (-600) 10 12), .tick 0 (Demo.tk 480 10 12), .tick 0 (Demo.tk 481 10 12), .tick 0 (Demo.tk 482 10 12)]
    let sizes (d : Desk) := (d.objs[1]?).map (fun o => o.fs.view.map Frame.nbTicks)
    sizes (Demo.desk.run l) = some [1, 1, 1, 1] ∧ sizes (Demo.desk.run l') = some [3] := by
  decide +kernel

section examples

example : letI := Arith.exact
    Spec.OneEpic Demo.ownDesk ∧
    (Spec.asCmds Demo.desk Demo.ownDesk).length = 8 ∧
    ((Demo.desk.run Demo.ownDesk).objs.map (fun o => (o.owner, o.fs.view.map Frame.nbTicks)) =
      [(some 0, [1, 1]), (none, []), (some 1, [1])]) := by
  letI := Arith.exact
  refine ⟨?_, by decide +kernel, by decide +kernel⟩
  intro e e' j h h'
  simp only [Demo.ownDesk, List.mem_cons, DCmd.add.injEq, reduceCtorEq, List.not_mem_nil, or_false] at h h'
  omega

example : letI := Arith.exact
    Spec.Smooth Demo.desk Demo.orderedDesk ∧
    (Spec.merged Demo.desk.zone 0 [] Demo.orderedDesk = [Demo.tk 480 10 12, Demo.tk 480 11 13, Demo.tk 482 9 11]) ∧
    (Spec.merged Demo.desk.zone 0 [] Demo.orderedDesk).Pairwise (fun a b => a.dt.wall ≤ b.dt.wall) ∧
    (((Demo.desk.run Demo.orderedDesk).objs[0]?).map (fun o => o.fs.view.map Frame.nbTicks) = some [2, 1, 1]) := by
  letI := Arith.exact
  refine ⟨?_, by decide +kernel, by decide +kernel, by decide +kernel⟩
  exact smooth_cons.mpr ⟨by decide +kernel, smooth_cons.mpr ⟨by decide +kernel, smooth_cons.mpr ⟨by decide +kernel,
      smooth_cons.mpr ⟨by decide +kernel, smooth_cons.mpr ⟨by decide +kernel, smooth_cons.mpr ⟨by decide +kernel, smooth_nil _⟩⟩⟩⟩⟩⟩

end examples

end Estrade
