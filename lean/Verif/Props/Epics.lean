import Verif.Lemmas.EpicFront
import Verif.Lemmas.TickSet
import Verif.Demo

/-!
# C14 - C17, C21, C57: epics (estrade/epic.py)

`Reachable env w`: some program reaches the world `w` from freshly built objects, with strategy callbacks `env`.
-/

set_option linter.style.haveILetI false
set_option linter.unusedSectionVars false
set_option autoImplicit false

namespace Estrade

section
variable [Arith]

/-! ## C14 -/

/-- A frame set that accepts no frame has none. -/
theorem feeds_no_memory {u : Unit'} {q m : ℤ} (hm : m < 1) {fs : FrameSet} {h : List HEv}
    (hF : Feeds u q m fs h) : fs.frames = [] ∧ fs.maxFrames = m ∧ h = [] := by
  induction hF with
  | new => exact ⟨rfl, rfl, rfl⟩
  | ind i _ ih => rw [addIndicator_fields]; exact ih
  | @tick fs fs' h c t hF hok ih =>
    exfalso
    obtain ⟨h1, h2, -⟩ := ih
    have hcur : fs.current = none := by unfold FrameSet.current; rw [h1]; rfl
    have hno : ∀ ps pe g, fs.createFrame c t ps pe ≠ .ok g := by
      intro ps pe g hc
      unfold FrameSet.createFrame at hc
      simp only [bind, Except.bind] at hc
      split at hc
      · cases hc
      · split at hc
        · cases hc
        · rename_i hcl
          rw [h1, h2] at hcl
          simp only [List.nil_append, cleanLoop] at hcl
          rw [if_pos (by omega)] at hcl
          cases hcl
    unfold FrameSet.onNewTick at hok
    split_ifs at hok with hu ho
    · exact hno _ _ _ hok
    · unfold FrameSet.overTick at ho
      rw [hcur] at ho
      exact ho rfl
    · simp only [FrameSet.overTimed, hcur, bind, Except.bind, if_true] at hok
      unfold FrameSet.createTimed at hok
      simp only [bind, Except.bind] at hok
      split at hok
      · cases hok
      · rename_i ps hps
        have : ∀ n, fillLoop c ps n fs = .ok fs := by
          intro n
          cases n <;> (unfold fillLoop; rw [hcur])
        rw [this] at hok
        exact hno _ _ _ hok

/-- `frames[k]` of the Python object. -/
theorem feeds_ids {u : Unit'} {q m : ℤ} {fs : FrameSet} {h : List HEv} (hF : Feeds u q m fs h) :
    fs.view.length = fs.frames.length ∧ ∀ i : ℕ, fs.view[i]? = (fs.frames[i]?).bind (fun j => fs.heap[j]?) := by
  by_cases hm : m < 1
  · obtain ⟨h1, -, -⟩ := feeds_no_memory hm hF
    unfold FrameSet.view
    rw [h1]
    simp
  · obtain ⟨A, hB, -⟩ := feeds_built (by omega) hF
    have hR := hB.rep (by omega)
    refine ⟨?_, fun i => ?_⟩
    · rw [hR.view_length, hR.frames, List.length_range']; omega
    · rw [hR.view_get, hR.frames]
      by_cases hi : i < A.length - (A.length - fs.maxFrames.toNat)
      · rw [List.getElem?_range' hi]; simp
      · have h1 : (List.range' (A.length - fs.maxFrames.toNat)
            (A.length - (A.length - fs.maxFrames.toNat)))[i]? = none :=
          List.getElem?_eq_none (by rw [List.length_range']; omega)
        rw [h1, Option.bind_none, List.getElem?_eq_none]
        rw [hR.len]; omega

/-- C14: `get_frame(ref, k)` is the `k`-th frame counted from the most recent one, `None` when there are not
that many. -/
theorem C14_get_frame (ep : Epic) (ref : String) (u : Unit') (q m : ℤ) (fs : FrameSet) (h : List HEv)
    (hfs : ep.frameSets.get? ref = some fs) (hF : Feeds u q m fs h) (k : ℕ) :
    ep.getFrame ref k = .ok (fs.view.reverse[k]?) := by
  obtain ⟨h1, h2⟩ := feeds_ids hF
  unfold Epic.getFrame FrameSet.getItem pyGet
  rw [hfs]
  simp only
  congr 1
  rw [if_neg (by omega)]
  have e : (-(((k : ℤ) + 1) * -1)).toNat = k + 1 := by omega
  rw [e]
  by_cases hk : k < fs.view.length
  · rw [if_pos (by omega), List.getElem?_reverse hk, h2, h1]
    congr 2
    omega
  · rw [if_neg (by omega), List.getElem?_eq_none (by rw [List.length_reverse]; omega)]
    rfl

/-- C14: offset 0 is the current frame, the one the last tick went to. -/
theorem C14_current (ep : Epic) (ref : String) (u : Unit') (q m : ℤ) (fs : FrameSet) (h : List HEv)
    (hfs : ep.frameSets.get? ref = some fs) (hF : Feeds u q m fs h) :
    ep.getFrame ref 0 = .ok fs.view.getLast? := by
  have := C14_get_frame ep ref u q m fs h hfs hF 0
  rw [Nat.cast_zero] at this
  rw [this, ← List.head?_eq_getElem?, List.head?_reverse]

/-- C14: unknown references raise KeyError, for frames and for indicator values. -/
theorem C14_unknown (ep : Epic) (ref ind : String) (hfs : ∀ p ∈ ep.frameSets, p.1 ≠ ref) (k : ℤ) :
    ep.getFrame ref k = .error .key ∧ ep.getIndicatorValue ref ind k = .error .key := by
  have : ep.frameSets.get? ref = none := by
    rw [Dict.get?_eq_none]
    intro h
    obtain ⟨p, hp, e⟩ := List.mem_map.mp h
    exact hfs p hp e
  unfold Epic.getIndicatorValue Epic.getFrame
  rw [this]
  exact ⟨rfl, rfl⟩

/-- C14: `get_indicator_value(ref, ind, k)` is the value stored in the `k`-th most recent frame: `None` when
there is no such frame, no such indicator or no value. -/
theorem C14_indicator_value (ep : Epic) (ref ind : String) (u : Unit') (q m : ℤ) (fs : FrameSet)
    (h : List HEv) (hfs : ep.frameSets.get? ref = some fs) (hF : Feeds u q m fs h) (k : ℕ) :
    ep.getIndicatorValue ref ind k = .ok (match fs.view.reverse[k]? with
      | none => none
      | some f => match f.inds.find? (fun p => p.1 == ind) with
        | none => none
        | some p => p.2) := by
  unfold Epic.getIndicatorValue
  rw [C14_get_frame ep ref u q m fs h hfs hF k]
  simp only [bind, Except.bind]
  congr 1
  cases fs.view.reverse[k]? with
  | none => rfl
  | some f =>
    simp only [Option.bind_some, Frame.get, Dict.get?]
    cases f.inds.find? (fun p => p.1 == ind) with
    | none => rfl
    | some p => rfl

/-- Concrete case: minute frames 08:00, 08:01 (filled), 08:02; offsets 0, 1, 2 and 3, and an indicator. -/
example : letI := Arith.exact
    ∃ fs, feedAll Demo.minutes [(⟨Zone.utc, none⟩, Demo.tk 480 1 3), (⟨Zone.utc, none⟩, Demo.tk 482 5 7)] = .ok fs ∧
      (∃ h, Feeds .minute 1 10 fs h) ∧
      let ep := { Epic.new "E" Zone.utc 0 0 [] [] 0 with frameSets := [("UT1", fs)] }
      ((ep.getFrame "UT1" 0).toOption.bind id).map (fun f => f.last.bid) = some 5 ∧
      ((ep.getFrame "UT1" 1).toOption.bind id).map (fun f => f.periodStart) = some (Demo.monday + 481 * minUs) ∧
      ((ep.getFrame "UT1" 2).toOption.bind id).map (fun f => f.last.bid) = some 1 ∧
      ep.getFrame "UT1" 3 = .ok none ∧ ep.getFrame "UT2" 0 = .error .key ∧
      ep.getIndicatorValue "UT1" "sma" 1 = .ok none := by
  letI := Arith.exact
  refine ⟨_, rfl, ?_, by decide +kernel⟩
  obtain ⟨h, h1, -⟩ := feeds_of_feedAll (m := 10) (l := [(⟨Zone.utc, none⟩, Demo.tk 480 1 3),
    (⟨Zone.utc, none⟩, Demo.tk 482 5 7)]) (Feeds.new (u := .minute) (q := 1)) rfl
  exact ⟨_, h1⟩

/-- C14, outside the claim: negative offsets silently count from the oldest frame. -/
theorem C14_negative_offset (ep : Epic) (ref : String) (u : Unit') (q m : ℤ) (fs : FrameSet) (h : List HEv)
    (hfs : ep.frameSets.get? ref = some fs) (hF : Feeds u q m fs h) (k : ℕ) :
    ep.getFrame ref (-(k + 1)) = .ok (fs.view[k]?) := by
  obtain ⟨h1, h2⟩ := feeds_ids hF
  unfold Epic.getFrame FrameSet.getItem pyGet
  rw [hfs]
  simp only
  congr 1
  rw [if_pos (by omega), h2]
  congr 2
  omega

/-! ## C15 -/

/-- C15: a tick before the last one raises EpicException and changes nothing at all. -/
theorem C15_anterior_rejected (env : Env) (w : World) (e : ℕ) (k : Tick) (ep : Epic)
    (hep : w.epics[e]? = some ep)
    (hr : (Spec.localTick ep.zone k).dt.lt ep.lastTick.dt = true) :
    w.onNewTick env e k = (w, some .epic) :=
  onNewTick_rejected env w e k ep hep hr

/-- C15: any other tick is accepted: it becomes the epic's last tick (whatever frame sets or strategies do
with it), and is the next accepted tick. -/
theorem C15_accepted (env : Env) (w : World) (e : ℕ) (k : Tick) (ep : Epic) (hep : w.epics[e]? = some ep)
    (hr : (Spec.localTick ep.zone k).dt.lt ep.lastTick.dt = false) :
    (∃ ep', (w.onNewTick env e k).1.epics[e]? = some ep' ∧ ep'.lastTick = Spec.localTick ep.zone k) ∧
    Spec.acceptedOn e (w.onNewTick env e k).1.log =
      Spec.acceptedOn e w.log ++ [Spec.localTick ep.zone k] := by
  rcases tick_effect env w e k with ⟨-, h⟩ | ⟨ep', h1, h2, h3, h4⟩
  · exact absurd (h ep hep) (by rw [show k.dt.to ep.zone = (Spec.localTick ep.zone k).dt from rfl, hr]; simp)
  · rw [hep] at h1; injection h1 with h1; subst h1
    have h3' : (w.onNewTick env e k).1.epics = _ := h3
    refine ⟨⟨_, by rw [h3', List.getElem?_set_self (getElem?_lt hep)], rfl⟩, ?_⟩
    have := h4 e
    rw [if_pos rfl] at this
    exact this

/-- C15: the local datetimes of the ticks an epic accepts never decrease, for every program and every behaviour
of the strategies; the last one is the epic's last tick. -/
theorem C15_non_decreasing (env : Env) (w : World) (hw : Reachable env w) (e : ℕ) (ep : Epic)
    (hep : w.epics[e]? = some ep) :
    (Spec.acceptedOn e w.log).Pairwise (fun a b => a.dt.wall ≤ b.dt.wall) ∧
    ep.lastTick = ((Spec.acceptedOn e w.log).getLast?).getD Tick.epoch := by
  have h := reachable_epicInv hw e ep hep
  refine ⟨h.sorted, ?_⟩
  rcases hl : (Spec.acceptedOn e w.log).getLast? with _ | t
  · exact (h.empty (List.getLast?_eq_none_iff.mp hl)).1
  · exact (h.last t hl).1

/-- Concrete case: a tick at 07:59 after one at 08:00 is refused; one at 08:00 again is accepted. -/
example : letI := Arith.exact
    let w := Demo.world.runCmds Demo.quiet (Demo.script.take 6)
    (w.onNewTick Demo.quiet 0 (Demo.tk 479 1 1)).2 = some .epic ∧
    (w.onNewTick Demo.quiet 0 (Demo.tk 480 1 1)).2 = none ∧
    (Spec.acceptedOn 0 w.log).map (fun t => t.bid) = [10, 11, 12] := by decide +kernel

/-! ## C16 -/

/-- C16: conversion keeps the instant of the tick and its prices: every accepted tick is the local version of a
tick that was fed to this epic. -/
theorem C16_instant_preserved (env : Env) (w : World) (e : ℕ) (k : Tick) (ep : Epic)
    (hep : w.epics[e]? = some ep) (hr : (Spec.localTick ep.zone k).dt.lt ep.lastTick.dt = false) :
    ∃ ep', (w.onNewTick env e k).1.epics[e]? = some ep' ∧ ep'.lastTick.dt.utc = k.dt.utc ∧
      ep'.lastTick.dt.wall = k.dt.utc + ep.zone.off k.dt.utc ∧
      ep'.lastTick.bid = k.bid ∧ ep'.lastTick.ask = k.ask := by
  obtain ⟨⟨ep', h1, h2⟩, -⟩ := C15_accepted env w e k ep hep hr
  exact ⟨ep', h1, by rw [h2]; exact ⟨rfl, rfl, rfl, rfl⟩⟩

/-- Spec: the statement of C16: ticks fed in chronological order are all accepted, in every zone. -/
def Spec.C16 : Prop :=
  ∀ (env : Env) (w : World), w.Init → ∀ (e : ℕ) (ep : Epic), w.epics[e]? = some ep →
    (ep.zone.id = Zone.utc.id → ep.zone.off = Zone.utc.off) →
    ∀ l : List Cmd, (Spec.fedTo e l).Pairwise (fun a b => a.dt.utc ≤ b.dt.utc) →
      (∀ t ∈ Spec.fedTo e l, midnight 1900 1 1 ≤ t.dt.utc) →
      Spec.acceptedOn e (w.runCmds env l).log = (Spec.fedTo e l).map (Spec.localTick ep.zone)

/-- A zone whose clocks go back by one hour on 25 October 2020. -/
def fallBack : Zone := ⟨7, fun u => if u < midnight 2020 10 25 then 2 * hourUs else hourUs, fun x => x⟩

/-- C16 is false: after clocks go back, a later tick with an earlier wall clock is refused. -/
theorem C16_false : ¬ Spec.C16 := by
  intro h
  let w : World := ⟨[Epic.new "E" fallBack 0 dayUs [] [] 0], [], [Provider.new .backtests], [], []⟩
  have hw : w.Init := by
    refine ⟨?_, by simp [w], ?_, rfl, rfl⟩
    · intro e he
      rw [List.mem_singleton.mp he]
      exact ⟨_, _, _, _, _, _, 0, by decide, rfl⟩
    · intro p hp
      rw [List.mem_singleton.mp hp]
      exact ⟨_, rfl⟩
  let t1 : Tick := ⟨⟨midnight 2020 10 25 - 1, midnight 2020 10 25 - 1, 0⟩, 1, 1⟩
  let t2 : Tick := ⟨⟨midnight 2020 10 25, midnight 2020 10 25, 0⟩, 1, 1⟩
  have := h Demo.quiet w hw 0 _ rfl (fun hid => absurd hid (by decide)) [.tick 0 t1, .tick 0 t2]
    (by simp [Spec.fedTo, t1, t2]) (by
      intro t ht
      simp only [Spec.fedTo, List.filterMap_cons, List.filterMap_nil, if_true, List.mem_cons, List.not_mem_nil, or_false] at ht
      rcases ht with rfl | rfl <;> decide +kernel)
  have hs := (C15_non_decreasing Demo.quiet (w.runCmds Demo.quiet [.tick 0 t1, .tick 0 t2])
    ⟨w, hw, _, rfl⟩ 0)
  have hlen : ∃ ep, (w.runCmds Demo.quiet [.tick 0 t1, .tick 0 t2]).epics[0]? = some ep := by
    have hf := congrArg List.length (runCmds_front Demo.quiet [.tick 0 t1, .tick 0 t2] w)
    rcases hx : (w.runCmds Demo.quiet [.tick 0 t1, .tick 0 t2]).epics[0]? with _ | ep
    · exfalso
      rw [List.getElem?_eq_none_iff] at hx
      rw [List.length_map] at hf
      have h2 : (List.foldl frontStep (w.epics.map Epic.front) [.tick 0 t1, .tick 0 t2]).length = 1 := by
        have hstep : ∀ l k, (frontStep l (.tick 0 k)).length = l.length := by
          intro l k
          simp only [frontStep]
          split
          · rfl
          · split_ifs <;> simp
        simp only [List.foldl_cons, List.foldl_nil, hstep]
        rfl
      omega
    · exact ⟨ep, rfl⟩
  obtain ⟨ep, hep⟩ := hlen
  have hs := (hs ep hep).1
  rw [this] at hs
  revert hs
  simp only [Spec.fedTo, List.filterMap_cons, List.filterMap_nil, if_true, List.map_cons, List.map_nil,
    List.pairwise_cons, List.mem_singleton, forall_eq]
  intro hs
  exact absurd hs.1 (by decide +kernel)

/-- Spec: in this zone the wall clock never goes back. -/
def Spec.MonotoneZone (z : Zone) : Prop := ∀ u v, u ≤ v → u + z.off u ≤ v + z.off v

/-- C16 for zones whose wall clock never goes back (constant offsets, and jumps forward): every chronologically
ordered sequence is accepted entirely, whatever else the program and the strategies do.
Missing for the full claim: zones in which clocks are set back (there it is false, `C16_false`). -/
theorem C16_chronological_accepted_partial (env : Env) (w : World) (hw : w.Init) (e : ℕ) (ep : Epic)
    (hep : w.epics[e]? = some ep) (hz : Spec.MonotoneZone ep.zone)
    (hutc : ep.zone.id = Zone.utc.id → ep.zone.off = Zone.utc.off) (l : List Cmd)
    (hl : (Spec.fedTo e l).Pairwise (fun a b => a.dt.utc ≤ b.dt.utc))
    (h0 : ∀ t ∈ Spec.fedTo e l, midnight 1900 1 1 ≤ t.dt.utc) :
    Spec.acceptedOn e (w.runCmds env l).log = (Spec.fedTo e l).map (Spec.localTick ep.zone) := by
  have key : ∀ (l : List Cmd) (w : World) (ep : Epic), w.epics[e]? = some ep → Spec.MonotoneZone ep.zone →
      (ep.zone.id = Zone.utc.id → ep.zone.off = Zone.utc.off) →
      (Spec.fedTo e l).Pairwise (fun a b => a.dt.utc ≤ b.dt.utc) →
      (∀ t ∈ Spec.fedTo e l, ep.lastTick.dt.utc ≤ t.dt.utc) →
      (ep.lastTick.dt = ep.lastTick.dt.to ep.zone ∨ ep.lastTick = Tick.epoch) →
      Spec.acceptedOn e (w.runCmds env l).log =
        Spec.acceptedOn e w.log ++ (Spec.fedTo e l).map (Spec.localTick ep.zone) := by
    intro l
    induction l with
    | nil => intro w ep _ _ _ _ _ _; simp [World.runCmds, Spec.fedTo]
    | cons c l ih =>
      intro w ep hep hz hutc hl h0 hlast
      rw [runCmds_cons]
      by_cases hc : ∀ t, c ≠ .tick e t
      · have hf : Spec.fedTo e (c :: l) = Spec.fedTo e l := by
          unfold Spec.fedTo
          rw [List.filterMap_cons]
          cases c with
          | tick e' t =>
            have : e' ≠ e := fun he => hc t (by rw [he])
            simp [this]
          | op o => rfl
          | addFrameSet e r f => rfl
          | addStrategy e s => rfl
          | addIndicator e r i => rfl
        rw [hf] at hl h0 ⊢
        by_cases hc' : ∀ e t, c ≠ .tick e t
        · obtain ⟨g1, g2, g3⟩ := exec_other env w c hc'
          obtain ⟨ep', k1, k2⟩ := g3 e ep hep
          rw [ih _ ep' k1 (by rw [k2.zone]; exact hz) (by rw [k2.zone]; exact hutc) hl
            (by rw [k2.last]; exact h0) (by rw [k2.last, k2.zone]; exact hlast), g1, k2.zone]
        · push Not at hc'
          obtain ⟨e', t, rfl⟩ := hc'
          have hne : e' ≠ e := fun he => hc t (by rw [he])
          rcases tick_effect env w e' t with ⟨g, -⟩ | ⟨ep', g1, g2, g3, g4⟩
          · rw [g]; exact ih w ep hep hz hutc hl h0 hlast
          · rw [ih _ ep (by rw [g3, List.getElem?_set, if_neg hne]; exact hep) hz hutc hl h0 hlast,
              g4 e, if_neg hne, List.append_nil]
      · push Not at hc
        obtain ⟨t, rfl⟩ := hc
        have hf : Spec.fedTo e (.tick e t :: l) = t :: Spec.fedTo e l := by
          unfold Spec.fedTo
          rw [List.filterMap_cons]
          simp
        rw [hf] at hl h0 ⊢
        have hacc : (t.dt.to ep.zone).lt ep.lastTick.dt = false := by
          have hle := h0 t (by simp)
          rw [DT.lt]
          split_ifs with htz
          · rw [decide_eq_false_iff_not, not_lt]
            rcases hlast with hlast | hlast
            · rw [hlast]
              exact hz _ _ hle
            · rw [hlast] at htz hle ⊢
              have := hutc htz
              unfold DT.to
              rw [this]
              simpa [Zone.utc, Tick.epoch] using hle
          · rw [decide_eq_false_iff_not, not_lt]; exact hle
        rcases tick_effect env w e t with ⟨-, g⟩ | ⟨ep', g1, g2, g3, g4⟩
        · rw [g ep hep] at hacc; cases hacc
        · rw [hep] at g1; injection g1 with g1; subst g1
          rw [ih _ (ep.accept { t with dt := t.dt.to ep.zone }).1
            (by rw [g3, List.getElem?_set_self (getElem?_lt hep)]) hz hutc
            (List.pairwise_cons.mp hl).2 (fun x hx => (List.pairwise_cons.mp hl).1 x hx) (Or.inl rfl),
            g4 e, if_pos rfl, List.append_assoc]
          rfl
  obtain ⟨ref, z, o, c, td, hd, p, -, rfl⟩ := hw.epics ep (List.mem_of_getElem? hep)
  rw [key l w _ hep hz hutc hl h0 (Or.inr rfl), hw.log]
  rfl

/-- Concrete case: the zone of the demo epics is one of these, and all five ticks of the script arrive. -/
example : Spec.MonotoneZone Zone.utc ∧
    (Spec.fedTo 0 Demo.script).Pairwise (fun a b => a.dt.utc ≤ b.dt.utc) ∧
    (∀ t ∈ Spec.fedTo 0 Demo.script, midnight 1900 1 1 ≤ t.dt.utc) ∧ (Spec.fedTo 0 Demo.script).length = 5 := by
  refine ⟨fun u v h => by simpa [Zone.utc] using h, by decide +kernel, by decide +kernel, by decide +kernel⟩

/-- Concrete case: a zone with a jump forward (spring) is monotone. -/
example : Spec.MonotoneZone ⟨3, fun u => if u < 0 then 0 else hourUs, fun x => x⟩ := by
  intro u v h
  show u + (if u < 0 then 0 else hourUs) ≤ v + (if v < 0 then 0 else hourUs)
  have : (0 : ℤ) ≤ hourUs := by decide
  split_ifs <;> omega

/-! ## C17 -/

/-- C17: after an accepted tick `market_open` is exactly the market calendar at the tick's local time. -/
theorem C17_market_open (env : Env) (w : World) (e : ℕ) (k : Tick) (ep : Epic) (hep : w.epics[e]? = some ep)
    (hr : (Spec.localTick ep.zone k).dt.lt ep.lastTick.dt = false) :
    ∃ ep', (w.onNewTick env e k).1.epics[e]? = some ep' ∧
      (ep'.marketOpen = true ↔ Spec.InSession ep.openTime ep.closeTime ep.tradeDays ep.holidays
        (k.dt.utc + ep.zone.off k.dt.utc)) := by
  obtain ⟨h3, -⟩ := onNewTick_effect env w e k ep hep hr
  exact ⟨_, by rw [h3, List.getElem?_set_self (getElem?_lt hep)], accept_open ep _⟩

/-- C17: at every moment of every program `market_open` is the calendar at the last accepted tick, and False
before the first one. -/
theorem C17_market_open_always (env : Env) (w : World) (hw : Reachable env w) (e : ℕ) (ep : Epic)
    (hep : w.epics[e]? = some ep) :
    ep.marketOpen = true ↔ ∃ t, (Spec.acceptedOn e w.log).getLast? = some t ∧
      Spec.InSession ep.openTime ep.closeTime ep.tradeDays ep.holidays t.dt.wall := by
  have h := reachable_epicInv hw e ep hep
  rcases hl : (Spec.acceptedOn e w.log).getLast? with _ | t
  · rw [(h.empty (List.getLast?_eq_none_iff.mp hl)).2]
    simp
  · rw [(h.last t hl).2]
    simp

/-- C17: the default trade days are Monday to Friday. -/
theorem C17_default_days (ref : String) (z : Zone) (o c : ℤ) (h : List ℤ) (p : ℕ) (wall : ℤ) :
    Spec.Open (Epic.new ref z o c [] h p) wall ↔
      o ≤ wall % 86400000000 ∧ wall % 86400000000 ≤ c ∧
      (wall / 86400000000 - 1) % 7 ≤ 4 ∧ wall / 86400000000 ∉ h := by
  unfold Spec.Open Spec.InSession
  simp only [Epic.new, if_true, List.mem_cons, List.not_mem_nil, or_false]
  have : 0 ≤ (wall / 86400000000 - 1) % 7 := Int.emod_nonneg _ (by decide)
  constructor
  · rintro ⟨a, b, c, d⟩; exact ⟨a, b, by omega, d⟩
  · rintro ⟨a, b, c, d⟩; exact ⟨a, b, by omega, d⟩

/-- Concrete case: Monday 07:59 closed, 08:00 and 16:00 open, 16:00:00.000001 closed; Saturday and a holiday
closed. -/
example : let o := 8 * hourUs; let c := 16 * hourUs; let m := Demo.monday
    let holiday := m / 86400000000 + 1
    ¬ Spec.InSession o c [0, 1, 2, 3, 4] [holiday] (m + 479 * minUs) ∧
    Spec.InSession o c [0, 1, 2, 3, 4] [holiday] (m + 480 * minUs) ∧
    Spec.InSession o c [0, 1, 2, 3, 4] [holiday] (m + 960 * minUs) ∧
    ¬ Spec.InSession o c [0, 1, 2, 3, 4] [holiday] (m + 960 * minUs + 1) ∧
    ¬ Spec.InSession o c [0, 1, 2, 3, 4] [holiday] (m + dayUs + 480 * minUs) ∧
    ¬ Spec.InSession o c [0, 1, 2, 3, 4] [holiday] (m + 5 * dayUs + 480 * minUs) ∧
    (let w := @World.runCmds Arith.exact Demo.quiet Demo.world (Demo.script.take 6)
     w.epics.map Epic.marketOpen = [true, false]) := by decide +kernel

/-! ## C21 -/

/-- C21: a frame set is refused, without any change, iff the reference is in use. -/
theorem C21_frame_set_refused (w : World) (e : ℕ) (ep : Epic) (hep : w.epics[e]? = some ep) (ref : String)
    (fs : FrameSet) :
    (w.addFrameSet e ref fs).2 = some .epic ↔ ∃ p ∈ ep.frameSets, p.1 = ref := by
  have hk : (∃ p ∈ ep.frameSets, p.1 = ref) ↔ ref ∈ ep.frameSets.keys := by
    unfold Dict.keys; rw [List.mem_map]
  rw [hk, ← Dict.get?_isSome]
  unfold World.addFrameSet Epic.addFrameSet
  rw [hep]
  simp only
  cases ep.frameSets.get? ref with
  | none => simp
  | some x => simp

/-- C21: refused means unchanged; otherwise the frame set comes last, and looking the reference up gives it. -/
theorem C21_frame_set_added (w : World) (e : ℕ) (ep : Epic) (hep : w.epics[e]? = some ep) (ref : String)
    (fs : FrameSet) :
    ((∃ p ∈ ep.frameSets, p.1 = ref) → (w.addFrameSet e ref fs).1 = w) ∧
    ((∀ p ∈ ep.frameSets, p.1 ≠ ref) → ∃ ep', w.addFrameSet e ref fs =
      ({ w with epics := w.epics.set e ep' }, none) ∧
      ep' = { ep with frameSets := ep.frameSets ++ [(ref, fs)] } ∧
      ep'.frameSets.get? ref = some fs ∧ ∀ r, r ≠ ref → ep'.frameSets.get? r = ep.frameSets.get? r) := by
  have hk : (∃ p ∈ ep.frameSets, p.1 = ref) ↔ ref ∈ ep.frameSets.keys := by
    unfold Dict.keys; rw [List.mem_map]
  constructor
  · intro h
    obtain ⟨x, hx⟩ := (Dict.get?_isSome _ _).mpr (hk.mp h)
    unfold World.addFrameSet Epic.addFrameSet
    rw [hep]; simp only [hx]
  · intro h
    have hn : ep.frameSets.get? ref = none := by
      rw [Dict.get?_eq_none, ← hk]
      rintro ⟨p, hp, rfl⟩
      exact h p hp rfl
    refine ⟨{ ep with frameSets := ep.frameSets ++ [(ref, fs)] }, ?_, rfl, ?_, ?_⟩
    · unfold World.addFrameSet Epic.addFrameSet
      rw [hep]; simp only [hn]
      rw [Dict.set_new _ _ _ hn]
    · rw [← Dict.set_new _ _ _ hn, Dict.get?_set, if_pos rfl]
    · intro r hr
      rw [← Dict.set_new _ _ _ hn, Dict.get?_set, if_neg (Ne.symm hr)]

/-- C21: a strategy is refused, without any change, iff a strategy with its reference is registered;
otherwise it comes last in the calling order and looking its reference up gives it. -/
theorem C21_strategy_added (w : World) (e s : ℕ) (ep : Epic) (st : Strategy) (hep : w.epics[e]? = some ep)
    (hst : w.strategies[s]? = some st) :
    ((∃ p ∈ ep.strategies, p.1 = st.ref) → w.addStrategy e s = (w, some .epic)) ∧
    ((∀ p ∈ ep.strategies, p.1 ≠ st.ref) → (w.addStrategy e s).2 = none ∧
      ∃ ep', (w.addStrategy e s).1.epics[e]? = some ep' ∧
        ep' = { ep with strategies := ep.strategies ++ [(st.ref, s)] } ∧
        ep'.strategies.get? st.ref = some s ∧
        (∀ r, r ≠ st.ref → ep'.strategies.get? r = ep.strategies.get? r) ∧
        ∀ e', e' ≠ e → (w.addStrategy e s).1.epics[e']? = w.epics[e']?) := by
  have hk : (∃ p ∈ ep.strategies, p.1 = st.ref) ↔ st.ref ∈ ep.strategies.keys := by
    unfold Dict.keys; rw [List.mem_map]
  constructor
  · intro h
    obtain ⟨x, hx⟩ := (Dict.get?_isSome _ _).mpr (hk.mp h)
    unfold World.addStrategy
    rw [hep, hst]; simp only [hx]
  · intro h
    have hn : ep.strategies.get? st.ref = none := by
      rw [Dict.get?_eq_none, ← hk]
      rintro ⟨p, hp, e⟩
      exact h p hp e
    have he : w.addStrategy e s = ((w.modEpic e (fun ep => { ep with strategies :=
        (ep.strategies.set st.ref s) })).modStrategy s
        (fun st => { st with epics := (st.epics.set ep.ref e) }), none) := by
      unfold World.addStrategy
      rw [hep, hst]; simp only [hn]
    rw [he]
    refine ⟨rfl, { ep with strategies := ep.strategies ++ [(st.ref, s)] }, ?_, rfl, ?_, ?_, ?_⟩
    · simp only [World.modStrategy, World.modEpic]
      rw [List.getElem?_modify, hep]
      simp only [if_true, Option.map_eq_map, Option.map_some]
      rw [Dict.set_new _ _ _ hn]
    · rw [← Dict.set_new _ _ _ hn, Dict.get?_set, if_pos rfl]
    · intro r hr
      rw [← Dict.set_new _ _ _ hn, Dict.get?_set, if_neg (Ne.symm hr)]
    · intro e' he'
      simp only [World.modStrategy, World.modEpic]
      rw [List.getElem?_modify]
      simp [Ne.symm he']

/-- C21: references stay pairwise distinct, in every program. -/
theorem C21_references_distinct (env : Env) (w : World) (hw : Reachable env w) (ep : Epic)
    (hep : ep ∈ w.epics) : (ep.frameSets.map Prod.fst).Nodup ∧ (ep.strategies.map Prod.fst).Nodup := by
  have P : ∀ (l : List Cmd) (w : World),
      (∀ ep ∈ w.epics, ep.frameSets.keys.Nodup ∧ ep.strategies.keys.Nodup) →
      ∀ ep ∈ (w.runCmds env l).epics, ep.frameSets.keys.Nodup ∧ ep.strategies.keys.Nodup := by
    intro l
    induction l with
    | nil => intro w h; exact h
    | cons c l ih =>
      intro w h
      rw [runCmds_cons]
      apply ih
      have hset : ∀ (i : ℕ) (x : Epic), (x.frameSets.keys.Nodup ∧ x.strategies.keys.Nodup) →
          ∀ ep ∈ w.epics.set i x, ep.frameSets.keys.Nodup ∧ ep.strategies.keys.Nodup := by
        intro i x hx ep hep
        rcases List.mem_or_eq_of_mem_set hep with hep | rfl
        · exact h ep hep
        · exact hx
      cases c with
      | tick e t =>
        rcases tick_effect env w e t with ⟨g, -⟩ | ⟨ep, g1, g2, g3, g4⟩
        · rw [g]; exact h
        · rw [g3]
          refine hset e _ ⟨?_, (h ep (List.mem_of_getElem? g1)).2⟩
          show ((updateFrameSets _ _ ep.frameSets).1).keys.Nodup
          rw [updateFrameSets_keys]
          exact (h ep (List.mem_of_getElem? g1)).1
      | op o =>
        show ∀ ep ∈ (w.step o).1.epics, _
        rw [(step_epics w o).1]; exact h
      | addFrameSet e ref fs =>
        simp only [World.exec, World.addFrameSet]
        rcases hep : w.epics[e]? with _ | ep
        · exact h
        · simp only
          unfold Epic.addFrameSet
          have hx := h ep (List.mem_of_getElem? hep)
          rcases hg : ep.frameSets.get? ref with _ | g
          · exact hset e _ ⟨Dict.keys_set_nodup _ _ _ hx.1, hx.2⟩
          · exact h
      | addStrategy e s =>
        simp only [World.exec, World.addStrategy]
        rcases hep : w.epics[e]? with _ | ep
        · exact h
        · rcases hs : w.strategies[s]? with _ | st
          · exact h
          · simp only
            split
            · exact h
            · simp only [World.modEpic, World.modStrategy]
              rw [← set_eq_modify _ _ _ _ hep]
              have hx := h ep (List.mem_of_getElem? hep)
              exact hset e _ ⟨hx.1, Dict.keys_set_nodup _ _ _ hx.2⟩
      | addIndicator e ref ind =>
        simp only [World.exec, World.addIndicator]
        rcases hep : w.epics[e]? with _ | ep
        · exact h
        · simp only
          have hx := h ep (List.mem_of_getElem? hep)
          rcases hg : ep.frameSets.get? ref with _ | g
          · exact h
          · exact hset e _ ⟨Dict.keys_set_nodup _ _ _ hx.1, hx.2⟩
  obtain ⟨w0, h0, l, rfl⟩ := hw
  refine P l w0 ?_ ep hep
  intro ep hep
  obtain ⟨ref, z, o, c, td, hd, p, -, rfl⟩ := h0.epics ep hep
  exact ⟨List.nodup_nil, List.nodup_nil⟩

/-- Concrete case: the second frame set "UT1" is refused, "UT2" is accepted; a strategy is registered once. -/
example : letI := Arith.exact
    let w := Demo.world.runCmds Demo.quiet (Demo.script.take 4)
    (w.addFrameSet 0 "UT1" Demo.minutes).2 = some .epic ∧ (w.addFrameSet 0 "UT2" Demo.minutes).2 = none ∧
    (w.addStrategy 0 1).2 = some .epic ∧ (w.addStrategy 1 1).2 = none ∧
    w.epics.map (fun ep => (ep.frameSets.keys, ep.strategies.keys)) = [(["UT1"], ["S0", "S1"]), ([], [])] := by
  decide +kernel

/-! ## C57 -/

/-- Spec: what happens to one frame set. -/
inductive Spec.FsEv
  | tick (c : Ctx) (t : Tick)
  | ind (i : Indicator)

/-- Spec: feeding a frame set directly. -/
def Spec.feed (fs : FrameSet) : List Spec.FsEv → Except PyErr FrameSet
  | [] => .ok fs
  | .tick c t :: rest => match fs.onNewTick c t with
    | .error err => .error err
    | .ok fs' => Spec.feed fs' rest
  | .ind i :: rest => Spec.feed (fs.addIndicator i).1 rest

/-- Spec: feeding a frame set directly and going on after exceptions. -/
def Spec.live (fs : FrameSet) : List Spec.FsEv → FrameSet
  | [] => fs
  | .tick c t :: rest => Spec.live (fs.feed c t).1 rest
  | .ind i :: rest => Spec.live (fs.addIndicator i).1 rest

theorem live_of_feed (l : List Spec.FsEv) : ∀ {fs fs' : FrameSet}, Spec.feed fs l = .ok fs' → Spec.live fs l = fs' := by
  induction l with
  | nil => intro fs fs' h; injection h
  | cons x l ih =>
    intro fs fs' h
    cases x with
    | tick c t =>
      rw [Spec.feed] at h
      split at h
      · cases h
      · rename_i g hg
        rw [Spec.live, feed_ok hg]
        exact ih h
    | ind i => exact ih h

/-- Spec: what a program sends to the frame set `ref` of epic number `e` with calendar `cal`: the ticks that are
not before the previous one, with the market state of each, and indicators. -/
def Spec.sent (e : ℕ) (ref : String) (cal : Epic) : DT → List Cmd → List Spec.FsEv
  | _, [] => []
  | last, .tick e' t :: rest =>
    if e' = e then
      let t := Spec.localTick cal.zone t
      if t.dt.lt last then Spec.sent e ref cal last rest
      else .tick ⟨cal.zone, some (decide (Spec.Open cal t.dt.wall), t.dt.wall / 86400000000)⟩ t ::
        Spec.sent e ref cal t.dt rest
    else Spec.sent e ref cal last rest
  | last, .addIndicator e' r i :: rest =>
    if e' = e ∧ r = ref then .ind i :: Spec.sent e ref cal last rest else Spec.sent e ref cal last rest
  | last, .op _ :: rest => Spec.sent e ref cal last rest
  | last, .addFrameSet _ _ _ :: rest => Spec.sent e ref cal last rest
  | last, .addStrategy _ _ :: rest => Spec.sent e ref cal last rest

/-- Spec: the statement of C57. -/
def Spec.C57 : Prop :=
  ∀ (env : Env) (w : World) (e : ℕ) (ref : String) (ep : Epic) (fs : FrameSet) (l : List Cmd),
    Reachable env w → w.epics[e]? = some ep → ep.frameSets.get? ref = some fs →
    ∀ ep', (w.runCmds env l).epics[e]? = some ep' →
      ∀ fs', Spec.feed fs (Spec.sent e ref ep ep.lastTick.dt l) = .ok fs' →
        ep'.frameSets.get? ref = some fs'

/-- C57 is false as it stands: when a frame set raises on a tick (here one that keeps no frame in memory),
the frame sets registered after it do not get the tick, although the epic has accepted it. -/
theorem C57_false : ¬ Spec.C57 := by
  intro h
  let bad : FrameSet := ⟨.tick, 1, 0, [], [], []⟩
  let good : FrameSet := ⟨.tick, 1, 5, [], [], []⟩
  let ep : Epic := { Epic.new "E" Zone.utc 0 dayUs [] [] 0 with frameSets := [("bad", bad), ("good", good)] }
  let w : World := ⟨[ep], [], [Provider.new .backtests], [], []⟩
  let t := Demo.tk 0 1 1
  have hacc : (t.dt.to ep.zone).lt ep.lastTick.dt = false := by decide +kernel
  obtain ⟨h1, -⟩ := onNewTick_effect Demo.quiet w 0 t ep rfl hacc
  have h2 : (w.runCmds Demo.quiet [.tick 0 t]).epics[0]? =
      some (ep.accept { t with dt := t.dt.to ep.zone }).1 := by
    show (w.onNewTick Demo.quiet 0 t).1.epics[0]? = _
    rw [h1]; rfl
  have hw : Reachable Demo.quiet w := by
    refine ⟨⟨[Epic.new "E" Zone.utc 0 dayUs [] [] 0], [], [Provider.new .backtests], [], []⟩,
      ⟨?_, by simp, ?_, rfl, rfl⟩, [.addFrameSet 0 "bad" bad, .addFrameSet 0 "good" good], rfl⟩
    · intro e he
      rw [List.mem_singleton.mp he]
      exact ⟨_, _, _, _, _, _, 0, by simp, rfl⟩
    · intro p hp
      rw [List.mem_singleton.mp hp]
      exact ⟨_, rfl⟩
  have := h Demo.quiet w 0 "good" ep good [.tick 0 t] hw rfl rfl _ h2
  have hlt : (Spec.localTick ep.zone t).dt.lt ep.lastTick.dt = false := hacc
  simp only [Spec.sent, if_true, hlt, Bool.false_eq_true, if_false, Spec.feed] at this
  have hgood : good.onNewTick ⟨ep.zone, some (decide (Spec.Open ep (Spec.localTick ep.zone t).dt.wall),
      (Spec.localTick ep.zone t).dt.wall / 86400000000)⟩ (Spec.localTick ep.zone t) =
      .ok ⟨.tick, 1, 5, [⟨(Spec.localTick ep.zone t).dt.wall, none, none, none, 1,
        Spec.localTick ep.zone t, Spec.localTick ep.zone t, Spec.localTick ep.zone t,
        Spec.localTick ep.zone t, []⟩], [0], []⟩ := rfl
  rw [hgood] at this
  have h3 := this _ rfl
  have h5 : Dict.get? (ep.accept { t with dt := t.dt.to ep.zone }).1.frameSets "good" = some good := rfl
  rw [h5] at h3
  injection h3 with h3
  have h6 := congrArg FrameSet.frames h3
  exact absurd h6 (by simp [good])

/-- C57 as long as no frame set registered earlier on the epic raises: each frame set is in the state obtained by feeding it
directly the accepted ticks with their market states (and the indicators registered on it), whatever the strategies, the
trades and the request threads do, and also if it raises itself.
Missing for the full claim: runs in which a frame set registered earlier raises (there it is false, `C57_false`). -/
theorem C57_frame_set_in_step_partial (env : Env) (w : World) (e : ℕ) (ref : String) (ep : Epic) (fs : FrameSet)
    (l : List Cmd) (hep : w.epics[e]? = some ep) (hfs : ep.frameSets.get? ref = some fs)
    (hok : ∀ l₁ t l₂ epx, l = l₁ ++ .tick e t :: l₂ → (w.runCmds env l₁).epics[e]? = some epx →
      (Spec.localTick epx.zone t).dt.lt epx.lastTick.dt = false →
      ∀ p ∈ epx.frameSets.takeWhile (fun p => p.1 != ref), (p.2.feed
        ⟨epx.zone, some (decide (Spec.Open epx (Spec.localTick epx.zone t).dt.wall),
          (Spec.localTick epx.zone t).dt.wall / 86400000000)⟩ (Spec.localTick epx.zone t)).2 = none) :
    ∃ ep', (w.runCmds env l).epics[e]? = some ep' ∧
      ep'.frameSets.get? ref = some (Spec.live fs (Spec.sent e ref ep ep.lastTick.dt l)) := by
  have key : ∀ (l : List Cmd) (w : World) (ep0 ep : Epic) (fs : FrameSet), w.epics[e]? = some ep →
      (ep0.zone = ep.zone ∧ ep0.openTime = ep.openTime ∧ ep0.closeTime = ep.closeTime ∧
        ep0.tradeDays = ep.tradeDays ∧ ep0.holidays = ep.holidays) →
      ep.frameSets.get? ref = some fs →
      (∀ l₁ t l₂ epx, l = l₁ ++ .tick e t :: l₂ → (w.runCmds env l₁).epics[e]? = some epx →
      (Spec.localTick epx.zone t).dt.lt epx.lastTick.dt = false →
      ∀ p ∈ epx.frameSets.takeWhile (fun p => p.1 != ref), (p.2.feed
        ⟨epx.zone, some (decide (Spec.Open epx (Spec.localTick epx.zone t).dt.wall),
          (Spec.localTick epx.zone t).dt.wall / 86400000000)⟩ (Spec.localTick epx.zone t)).2 = none) →
      ∃ ep', (w.runCmds env l).epics[e]? = some ep' ∧
        ep'.frameSets.get? ref = some (Spec.live fs (Spec.sent e ref ep0 ep.lastTick.dt l)) := by
    intro l
    induction l with
    | nil =>
      intro w ep0 ep fs hep _ hfs _
      exact ⟨ep, hep, hfs⟩
    | cons c l ih =>
      intro w ep0 ep fs hep h0 hfs hok
      rw [runCmds_cons]
      have hok' : ∀ l₁ t l₂ epx, l = l₁ ++ .tick e t :: l₂ →
          ((w.exec env c).1.runCmds env l₁).epics[e]? = some epx →
          (Spec.localTick epx.zone t).dt.lt epx.lastTick.dt = false →
          ∀ p ∈ epx.frameSets.takeWhile (fun p => p.1 != ref), (p.2.feed
            ⟨epx.zone, some (decide (Spec.Open epx (Spec.localTick epx.zone t).dt.wall),
              (Spec.localTick epx.zone t).dt.wall / 86400000000)⟩ (Spec.localTick epx.zone t)).2 = none := by
        intro l₁ t l₂ epx hl he
        exact hok (c :: l₁) t l₂ epx (by rw [hl]; rfl) he
      cases c with
      | tick e' t =>
        rw [Spec.sent]
        rcases tick_effect env w e' t with ⟨g, g'⟩ | ⟨epx, g1, g2, g3, g4⟩
        · rw [g] at hok' ⊢
          split_ifs with he
          · subst he
            have := g' ep hep
            have hlt : (Spec.localTick ep0.zone t).dt.lt ep.lastTick.dt = true := by rw [h0.1]; exact this
            simp only [hlt, if_true]
            exact ih w ep0 ep fs hep h0 hfs hok'
          · exact ih w ep0 ep fs hep h0 hfs hok'
        · split_ifs with he
          · subst he
            rw [hep] at g1; injection g1 with g1; subst g1
            have hlt : (Spec.localTick ep0.zone t).dt.lt ep.lastTick.dt = false := by rw [h0.1]; exact g2
            simp only [hlt, Bool.false_eq_true, if_false, Spec.live]
            have hall := hok [] t l ep rfl hep g2
            have hmo' : decide (Spec.Open ep (Spec.localTick ep.zone t).dt.wall) =
                (ep.accept (Spec.localTick ep.zone t)).1.marketOpen := by
              rw [Bool.eq_iff_iff, decide_eq_true_iff, accept_open ep (Spec.localTick ep.zone t)]
            have hmo : decide (Spec.Open ep0 (Spec.localTick ep0.zone t).dt.wall) =
                (ep.accept (Spec.localTick ep.zone t)).1.marketOpen := by
              rw [← hmo']
              unfold Spec.Open
              rw [h0.1, h0.2.1, h0.2.2.1, h0.2.2.2.1, h0.2.2.2.2]
            rw [hmo'] at hall
            have f2 := updateFrameSets_get
              ⟨ep.zone, some ((ep.accept (Spec.localTick ep.zone t)).1.marketOpen,
                (Spec.localTick ep.zone t).dt.wall / 86400000000)⟩ (Spec.localTick ep.zone t)
              ep.frameSets ref fs hall hfs
            rw [hmo, h0.1]
            exact ih _ ep0 (ep.accept (Spec.localTick ep.zone t)).1 _
              (by rw [g3, List.getElem?_set_self (getElem?_lt hep)]; rfl) h0 f2 hok'
          · refine ih _ ep0 ep fs ?_ h0 hfs hok'
            rw [g3, List.getElem?_set, if_neg he]; exact hep
      | op o =>
        refine ih _ ep0 ep fs ?_ h0 hfs hok'
        show (w.step o).1.epics[e]? = _
        rw [(step_epics w o).1]; exact hep
      | addFrameSet e' r g =>
        rw [Spec.sent]
        obtain ⟨-, -, h3⟩ := exec_other env w (.addFrameSet e' r g) (by simp)
        obtain ⟨ep', k1, k2⟩ := h3 e ep hep
        have hfs' : ep'.frameSets.get? ref = some fs := by
          have k1' : (w.addFrameSet e' r g).1.epics[e]? = some ep' := k1
          simp only [World.addFrameSet] at k1'
          rcases he' : w.epics[e']? with _ | epx
          · rw [he'] at k1'; simp only at k1'
            rw [hep] at k1'; injection k1' with k1'; rw [← k1']; exact hfs
          · rw [he'] at k1'; simp only [Epic.addFrameSet] at k1'
            rcases hgx : epx.frameSets.get? r with _ | y
            · rw [hgx] at k1'; simp only at k1'
              rw [List.getElem?_set] at k1'
              by_cases hee : e' = e
              · subst hee
                rw [he'] at hep; injection hep with hep; subst hep
                rw [if_pos rfl, if_pos (getElem?_lt he')] at k1'
                injection k1' with k1'; rw [← k1']
                simp only
                rw [Dict.get?_set]
                split_ifs with hr
                · subst hr; rw [hgx] at hfs; cases hfs
                · exact hfs
              · rw [if_neg hee, hep] at k1'; injection k1' with k1'; rw [← k1']; exact hfs
            · rw [hgx] at k1'; simp only at k1'
              rw [hep] at k1'; injection k1' with k1'; rw [← k1']; exact hfs
        rw [← k2.last]
        exact ih _ ep0 ep' fs k1 (by rw [k2.zone, k2.opening, k2.closing, k2.days, k2.off]; exact h0)
          hfs' hok'
      | addStrategy e' s =>
        rw [Spec.sent]
        obtain ⟨-, -, h3⟩ := exec_other env w (.addStrategy e' s) (by simp)
        obtain ⟨ep', k1, k2⟩ := h3 e ep hep
        have hfs' : ep'.frameSets = ep.frameSets := by
          have h4 := congrArg (fun l : List Epic => l[e]?) (exec_front env w (.addStrategy e' s))
          simp only [frontStep, front_get, k1, hep, Option.map_some] at h4
          injection h4 with h4
          exact (congrArg Epic.frameSets h4 : ep'.front.frameSets = ep.front.frameSets)
        rw [← k2.last]
        exact ih _ ep0 ep' fs k1 (by rw [k2.zone, k2.opening, k2.closing, k2.days, k2.off]; exact h0)
          (by rw [hfs']; exact hfs) hok'
      | addIndicator e' r i =>
        rw [Spec.sent]
        obtain ⟨-, -, h3⟩ := exec_other env w (.addIndicator e' r i) (by simp)
        obtain ⟨ep', k1, k2⟩ := h3 e ep hep
        have hfs' : ep'.frameSets.get? ref =
            some (if e' = e ∧ r = ref then (fs.addIndicator i).1 else fs) := by
          have k1' : (w.addIndicator e' r i).1.epics[e]? = some ep' := k1
          simp only [World.addIndicator] at k1'
          rcases he' : w.epics[e']? with _ | epx
          · rw [he'] at k1'; simp only at k1'
            have hne : e' ≠ e := by rintro rfl; rw [hep] at he'; cases he'
            rw [hep] at k1'; injection k1' with k1'
            rw [if_neg (fun h => hne h.1), ← k1']; exact hfs
          · rw [he'] at k1'; simp only at k1'
            by_cases hee : e' = e
            · subst hee
              rw [he'] at hep; injection hep with hep; subst hep
              rcases hgx : epx.frameSets.get? r with _ | y
              · rw [hgx] at k1'; simp only at k1'
                have hne : r ≠ ref := by rintro rfl; rw [hfs] at hgx; cases hgx
                rw [he'] at k1'; injection k1' with k1'
                rw [if_neg (fun h => hne h.2), ← k1']; exact hfs
              · rw [hgx] at k1'; simp only at k1'
                rw [List.getElem?_set, if_pos rfl, if_pos (getElem?_lt he')] at k1'
                injection k1' with k1'; rw [← k1']
                simp only
                rw [Dict.get?_set]
                by_cases hr : r = ref
                · subst hr
                  rw [hfs] at hgx; injection hgx with hgx; subst hgx
                  simp
                · simp [hr, hfs]
            · have hout : ∀ x : Epic, (w.epics.set e' x)[e]? = some ep := by
                intro x; rw [List.getElem?_set, if_neg hee]; exact hep
              rw [if_neg (fun h => hee h.1)]
              rcases hgx : epx.frameSets.get? r with _ | y
              · rw [hgx] at k1'; simp only at k1'
                rw [hep] at k1'; injection k1' with k1'; rw [← k1']; exact hfs
              · rw [hgx] at k1'; simp only [hout] at k1'
                injection k1' with k1'; rw [← k1']; exact hfs
        have h0' : ep0.zone = ep'.zone ∧ ep0.openTime = ep'.openTime ∧ ep0.closeTime = ep'.closeTime ∧
            ep0.tradeDays = ep'.tradeDays ∧ ep0.holidays = ep'.holidays := by
          rw [k2.zone, k2.opening, k2.closing, k2.days, k2.off]; exact h0
        rw [← k2.last]
        split_ifs with hc
        · rw [if_pos hc] at hfs'
          exact ih _ ep0 ep' _ k1 h0' hfs' hok'
        · rw [if_neg hc] at hfs'
          exact ih _ ep0 ep' _ k1 h0' hfs' hok'
  exact key l w ep ep fs hep ⟨rfl, rfl, rfl, rfl, rfl⟩ hfs hok

/-- The conclusion of `Spec.C57` under that condition. -/
theorem C57_fed_directly_partial (env : Env) (w : World) (e : ℕ) (ref : String) (ep : Epic) (fs : FrameSet)
    (l : List Cmd) (hep : w.epics[e]? = some ep) (hfs : ep.frameSets.get? ref = some fs)
    (hok : ∀ l₁ t l₂ epx, l = l₁ ++ .tick e t :: l₂ → (w.runCmds env l₁).epics[e]? = some epx →
      (Spec.localTick epx.zone t).dt.lt epx.lastTick.dt = false →
      ∀ p ∈ epx.frameSets.takeWhile (fun p => p.1 != ref), (p.2.feed
        ⟨epx.zone, some (decide (Spec.Open epx (Spec.localTick epx.zone t).dt.wall),
          (Spec.localTick epx.zone t).dt.wall / 86400000000)⟩ (Spec.localTick epx.zone t)).2 = none)
    (ep' : Epic) (hep' : (w.runCmds env l).epics[e]? = some ep') (fs' : FrameSet)
    (hfs' : Spec.feed fs (Spec.sent e ref ep ep.lastTick.dt l) = .ok fs') : ep'.frameSets.get? ref = some fs' := by
  obtain ⟨x, h1, h2⟩ := C57_frame_set_in_step_partial env w e ref ep fs l hep hfs hok
  rw [h1] at hep'
  injection hep' with hep'
  rw [← hep', h2, live_of_feed _ hfs']

/-- Concrete case: two ticks in the demo world, with a strategy that opens and closes trades on every call. -/
example : letI := Arith.exact
    let env : Env := fun s _ e _ => .act (.openTrade e (some s) (some .buy) 2) fun _ _ =>
      .act (.closeOpened s none) fun _ _ => .done
    let cmds : List Cmd := [.addStrategy 0 0, .tick 0 (Demo.tk 479 10 12), .tick 0 (Demo.tk 481 11 13)]
    let w := Demo.world.runCmds env (Demo.script.take 1)
    let w' := w.runCmds env cmds
    let quiet := w.runCmds Demo.quiet cmds
    (w'.epics[0]?.bind fun ep => ep.frameSets.get? "UT1") =
      (Spec.feed Demo.minutes (Spec.sent 0 "UT1" (Epic.new "E0" Zone.utc (8 * hourUs) (16 * hourUs) [] [] 0)
        Tick.epoch.dt cmds)).toOption ∧
    (w'.epics.map fun ep => ep.frameSets) = (quiet.epics.map fun ep => ep.frameSets) ∧
    w'.trades.length = 4 ∧ quiet.trades.length = 0 := by decide +kernel

/-- Spec: commands that concern the market side of epics. -/
def Spec.marketCmd : Cmd → Bool
  | .op _ => false
  | .addStrategy _ _ => false
  | _ => true

/-- Spec: clock, calendar and frame sets of an epic. -/
def Spec.marketSide (ep : Epic) : Epic := { ep with strategies := [] }

/-- C57: strategies, trades and request threads cannot influence epics' clocks, market state and frame sets:
two runs with different callbacks, strategies, trades and providers, and different uses of the API in between,
agree on them as soon as the same ticks, frame sets and indicators are given.  (Also when frame sets raise.) -/
theorem C57_noninterference (env env' : Env) (w w' : World) (l l' : List Cmd)
    (hw : w.epics.map Spec.marketSide = w'.epics.map Spec.marketSide)
    (hl : l.filter Spec.marketCmd = l'.filter Spec.marketCmd) :
    (w.runCmds env l).epics.map Spec.marketSide = (w'.runCmds env' l').epics.map Spec.marketSide := by
  have hf : ∀ (l : List Cmd) (x : List Epic), l.foldl frontStep x =
      (l.filter Spec.marketCmd).foldl frontStep x := by
    intro l
    induction l with
    | nil => intro x; rfl
    | cons c l ih =>
      intro x
      rw [List.filter_cons]
      cases c with
      | op o => exact ih x
      | addStrategy e s => exact ih x
      | tick e t => exact ih _
      | addFrameSet e r f => exact ih _
      | addIndicator e r i => exact ih _
  have h1 := runCmds_front env l w
  have h2 := runCmds_front env' l' w'
  rw [hf] at h1 h2
  have e1 : Spec.marketSide = Epic.front := rfl
  rw [e1] at hw ⊢
  rw [h1, h2, hl, hw]

end
end Estrade
