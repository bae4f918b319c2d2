import Verif.Lemmas.Rezone
import Verif.Lemmas.EpicFront
import Verif.Demo

/-!
# C89: the timezone of an epic may be assigned while it runs
(estrade/epic.py, estrade/graph/frame_set.py, estrade/mixins/timeframe.py)

Zones of constant offset; `offs n` is the offset of zone `n` and zone 0 is UTC.
-/

set_option linter.style.haveILetI false
set_option linter.unusedSectionVars false
set_option autoImplicit false

namespace Estrade

/-- Spec: a table of zones: zone 0 is UTC and offsets are less than 24 hours (`datetime.utcoffset` does not admit others). -/
def Spec.Table (offs : ℕ → ℤ) : Prop := offs 0 = 0 ∧ ∀ n, |offs n| < 24 * (60 * (60 * 1000000))

/-- Spec: a new epic in zone `m` with a new frame set. -/
structure Spec.NewEpic (offs : ℕ → ℤ) (u : Unit') (q : ℤ) (m : ℕ) (s : ZState) : Prop where
  last : s.ep.lastTick = Tick.epoch
  zone : s.ep.zone = tableZone offs m
  heap : s.set.fs.heap = []
  frames : s.set.fs.frames = []
  zones : s.set.zones = []
  unit : s.set.fs.unit = u
  qty : s.set.fs.qty = q

/-- Spec: the zone assigned last; names that are not known do not count. -/
def Spec.zoneAfter (m : ℕ) (l : List ZCmd) : ℕ := l.foldl (fun m c => match c with | .zone (some n) => n | _ => m) m

/-- Spec: the instants of a frame: from, to. -/
def Spec.Period (f : Frame) (s e : ℤ) : Prop := f.periodStart = s ∧ f.periodEnd = some e

section
variable [Arith]

/-! ## What an assignment does -/

/-- The clock of an epic in a run. -/
structure ZClock (offs : ℕ → ℤ) (m : ℕ) (s : ZState) : Prop where
  zone : s.ep.zone = tableZone offs m
  last : Proper offs s.ep.lastTick.dt

theorem ZClock.exec {offs : ℕ → ℤ} {m : ℕ} {s : ZState} (h : ZClock offs m s) (c : ZCmd) :
    ZClock offs (Spec.zoneAfter m [c]) (s.exec offs c).1 := by
  rcases c with t | (_ | n) | ind
  · unfold ZState.exec
    dsimp only
    split_ifs
    · exact h
    · refine ⟨h.zone, ?_⟩
      dsimp only
      rw [h.zone, to_proper]
      rfl
  · exact h
  · exact ⟨rfl, h.last⟩
  · exact ⟨h.zone, h.last⟩

theorem ZClock.run {offs : ℕ → ℤ} (l : List ZCmd) : ∀ {m : ℕ} {s : ZState}, ZClock offs m s →
    ZClock offs (Spec.zoneAfter m l) (s.run offs l) := by
  induction l with
  | nil => intro m s h; exact h
  | cons c l ih => intro m s h; exact ih (h.exec c)

theorem Spec.NewEpic.clock {offs : ℕ → ℤ} {u : Unit'} {q : ℤ} {m : ℕ} {s : ZState} (ho : Spec.Table offs)
    (h : Spec.NewEpic offs u q m s) : ZClock offs m s := by
  refine ⟨h.zone, ?_⟩
  rw [h.last]
  unfold Proper
  change Tick.epoch.dt.wall = Tick.epoch.dt.utc + offs 0
  rw [ho.1]
  rfl

/-- C89: an assignment of a name that is not in `pytz.all_timezones` raises EpicException and changes nothing; another one
changes the zone and nothing else. -/
theorem C89_assignment (offs : ℕ → ℤ) (s : ZState) :
    s.exec offs (.zone none) = (s, some .epic) ∧
    ∀ n, (s.exec offs (.zone (some n))).2 = none ∧ (s.exec offs (.zone (some n))).1.set = s.set ∧
      (s.exec offs (.zone (some n))).1.ep.zone = tableZone offs n ∧
      (s.exec offs (.zone (some n))).1.ep.lastTick = s.ep.lastTick ∧
      (s.exec offs (.zone (some n))).1.ep.marketOpen = s.ep.marketOpen :=
  ⟨rfl, fun _ => ⟨rfl, rfl, rfl, rfl, rfl⟩⟩

/-- C89: a tick is accepted if its instant is not before that of the last accepted tick, whatever the zones are, and it is
converted to the zone assigned last. -/
theorem C89_ticks (offs : ℕ → ℤ) (ho : Spec.Table offs) (u : Unit') (q : ℤ) (m : ℕ) (s : ZState) (hs : Spec.NewEpic offs u q m s)
    (l : List ZCmd) (t : Tick) :
    (t.dt.utc < (s.run offs l).ep.lastTick.dt.utc → (s.run offs l).exec offs (.tick t) = (s.run offs l, some .epic)) ∧
    ((s.run offs l).ep.lastTick.dt.utc ≤ t.dt.utc →
      ((s.run offs l).exec offs (.tick t)).1.ep.lastTick =
        { t with dt := ⟨t.dt.utc, t.dt.utc + offs (Spec.zoneAfter m l), Spec.zoneAfter m l⟩ }) := by
  have hc := ZClock.run l (hs.clock ho)
  generalize s.run offs l = s' at hc
  generalize Spec.zoneAfter m l = n at hc
  have hlt : (t.dt.to s'.ep.zone).lt s'.ep.lastTick.dt = decide (t.dt.utc < s'.ep.lastTick.dt.utc) := by
    rw [hc.zone, to_proper, (atZone_proper offs n _).lt hc.last]
    rfl
  unfold ZState.exec
  dsimp only
  rw [hlt]
  refine ⟨fun h => ?_, fun h => ?_⟩
  · rw [if_pos (decide_eq_true h)]
  · rw [if_neg (by rw [decide_eq_false (by omega)]; exact Bool.false_ne_true)]
    dsimp only
    rw [hc.zone]
    rfl

/-- Spec: opening hours, weekdays and holidays by the clock of the zone. -/
def Spec.openAt (ep : Epic) (wall : ℤ) : Prop :=
  ep.openTime ≤ wall % (24 * (60 * (60 * 1000000))) ∧ wall % (24 * (60 * (60 * 1000000))) ≤ ep.closeTime ∧
    (wall / (24 * (60 * (60 * 1000000))) + 6) % 7 ∈ ep.tradeDays ∧ wall / (24 * (60 * (60 * 1000000))) ∉ ep.holidays

/-- C89: after an accepted tick the market is open by the clock of the zone assigned last. -/
theorem C89_market_open (offs : ℕ → ℤ) (ho : Spec.Table offs) (u : Unit') (q : ℤ) (m : ℕ) (s : ZState)
    (hs : Spec.NewEpic offs u q m s) (l : List ZCmd) (t : Tick) (ht : (s.run offs l).ep.lastTick.dt.utc ≤ t.dt.utc) :
    ((s.run offs l).exec offs (.tick t)).1.ep.marketOpen = true ↔
      Spec.openAt (s.run offs l).ep (t.dt.utc + offs (Spec.zoneAfter m l)) := by
  have hc := ZClock.run l (hs.clock ho)
  generalize s.run offs l = s' at hc ht
  generalize Spec.zoneAfter m l = n at hc
  have hlt : (t.dt.to s'.ep.zone).lt s'.ep.lastTick.dt = decide (t.dt.utc < s'.ep.lastTick.dt.utc) := by
    rw [hc.zone, to_proper, (atZone_proper offs n _).lt hc.last]
    rfl
  unfold ZState.exec
  dsimp only
  rw [hlt, if_neg (by rw [decide_eq_false (by omega)]; exact Bool.false_ne_true)]
  dsimp only
  rw [hc.zone, to_proper]
  unfold Epic.isMarketOpen Epic.inMarketHours Spec.openAt weekdayOf ordOf timeOf atZone dayUs hourUs minUs secUs
  dsimp only
  split_ifs with h1 h2 h3 <;> simp_all

/-! ## Periods -/

theorem Spec.NewEpic.inv {offs : ℕ → ℤ} {u : Unit'} {q : ℤ} {m : ℕ} {s : ZState} (h : Spec.NewEpic offs u q m s) :
    ZInv offs u q s.set ∧ s.set.now = none := by
  refine ⟨⟨h.unit, h.qty, ?_, ?_, ?_, ?_⟩, ?_⟩
  · rw [h.zones, h.heap]; rfl
  · rw [h.heap, h.frames]; rfl
  · intro i b n hb
    rw [h.heap] at hb
    cases hb
  · intro i a b ha
    rw [h.heap] at ha
    cases ha
  · unfold ZFrameSet.now
    rw [h.heap]; rfl

/-- What holds of timed frame sets in a run. -/
structure ZRun (offs : ℕ → ℤ) (u : Unit') (q : ℤ) (m : ℕ) (s : ZState) : Prop where
  clock : ZClock offs m s
  inv : ZInv offs u q s.set
  now : ∀ b, s.set.now = some b → b.1 ≤ s.ep.lastTick.dt.utc

theorem ZRun.exec {offs : ℕ → ℤ} (ho : Spec.Table offs) {u : Unit'} {q : ℤ} (hT : Tiles u q) {m : ℕ} {s : ZState}
    (h : ZRun offs u q m s) (c : ZCmd) : ZRun offs u q (Spec.zoneAfter m [c]) (s.exec offs c).1 := by
  suffices hh : ZInv offs u q (s.exec offs c).1.set ∧
      ∀ b, (s.exec offs c).1.set.now = some b → b.1 ≤ (s.exec offs c).1.ep.lastTick.dt.utc from ⟨h.clock.exec c, hh.1, hh.2⟩
  rcases c with t | (_ | n) | ind
  · have hlt : (t.dt.to s.ep.zone).lt s.ep.lastTick.dt = decide (t.dt.utc < s.ep.lastTick.dt.utc) := by
      rw [h.clock.zone, to_proper, (atZone_proper offs m _).lt h.clock.last]
      rfl
    unfold ZState.exec
    dsimp only
    rw [hlt]
    split_ifs with hle
    · exact ⟨h.inv, h.now⟩
    · have hle : s.ep.lastTick.dt.utc ≤ t.dt.utc := by simpa using hle
      have hp : Proper offs (t.dt.to s.ep.zone) := by rw [h.clock.zone, to_proper]; rfl
      obtain ⟨r1, r2, _⟩ := h.inv.feed ho.2 hT
        ⟨s.ep.zone, some (({ s.ep with lastTick := { t with dt := t.dt.to s.ep.zone } } : Epic).isMarketOpen,
          ordOf (t.dt.to s.ep.zone).wall)⟩ (tick := { t with dt := t.dt.to s.ep.zone }) hp
        (fun b hb => le_trans (h.now b hb) hle)
      exact ⟨r1, r2⟩
  · exact ⟨h.inv, h.now⟩
  · exact ⟨h.inv, h.now⟩
  · unfold ZState.exec
    have hh : (s.set.fs.addIndicator ind).1.heap = s.set.fs.heap ∧ (s.set.fs.addIndicator ind).1.frames = s.set.fs.frames ∧
        (s.set.fs.addIndicator ind).1.unit = s.set.fs.unit ∧ (s.set.fs.addIndicator ind).1.qty = s.set.fs.qty := by
      unfold FrameSet.addIndicator
      rcases ind.kind <;> exact ⟨rfl, rfl, rfl, rfl⟩
    refine ⟨⟨hh.2.2.1.trans h.inv.unit, hh.2.2.2.trans h.inv.qty, ?_, ?_, ?_, ?_⟩, ?_⟩
    · dsimp only; rw [hh.1]; exact h.inv.zones
    · dsimp only; rw [hh.1, hh.2.1]; exact h.inv.last
    · dsimp only; rw [hh.1]; exact h.inv.period
    · dsimp only; rw [hh.1]; exact h.inv.linked
    · unfold ZFrameSet.now; dsimp only; rw [hh.1]; exact h.now

theorem ZRun.run {offs : ℕ → ℤ} (ho : Spec.Table offs) {u : Unit'} {q : ℤ} (hT : Tiles u q) (l : List ZCmd) : ∀ {m : ℕ} {s : ZState},
    ZRun offs u q m s → ZRun offs u q (Spec.zoneAfter m l) (s.run offs l) := by
  induction l with
  | nil => intro m s h; exact h
  | cons c l ih => intro m s h; exact ih (h.exec ho hT c)

theorem Spec.NewEpic.zrun {offs : ℕ → ℤ} (ho : Spec.Table offs) {u : Unit'} {q : ℤ} {m : ℕ} {s : ZState}
    (h : Spec.NewEpic offs u q m s) : ZRun offs u q m s :=
  ⟨h.clock ho, h.inv.1, fun b hb => by rw [h.inv.2] at hb; cases hb⟩

/-- C89: whatever zones are assigned, an accepted tick that raises nothing is the last tick of the current frame, and its instant
lies in the period of that frame. -/
theorem C89_tick_in_frame (offs : ℕ → ℤ) (ho : Spec.Table offs) (u : Unit') (q : ℤ) (ha : Spec.Accepted u q) (m : ℕ) (s : ZState)
    (hs : Spec.NewEpic offs u q m s) (l : List ZCmd) (t : Tick) (ht : ((s.run offs l).exec offs (.tick t)).2 = none) :
    ∃ i f a b, ((s.run offs l).exec offs (.tick t)).1.set.fs.current = some (i, f) ∧ Spec.Period f a b ∧
      a ≤ t.dt.utc ∧ t.dt.utc < b ∧
      f.last = { t with dt := ⟨t.dt.utc, t.dt.utc + offs (Spec.zoneAfter m l), Spec.zoneAfter m l⟩ } := by
  have hT := accepted_tiles ha
  have h := ZRun.run ho hT l (hs.zrun ho)
  generalize s.run offs l = s' at h ht
  generalize Spec.zoneAfter m l = n at h
  have hlt : (t.dt.to s'.ep.zone).lt s'.ep.lastTick.dt = decide (t.dt.utc < s'.ep.lastTick.dt.utc) := by
    rw [h.clock.zone, to_proper, (atZone_proper offs n _).lt h.clock.last]
    rfl
  unfold ZState.exec at ht ⊢
  dsimp only at ht ⊢
  rw [hlt] at ht ⊢
  split_ifs at ht ⊢ with hle
  have hle : s'.ep.lastTick.dt.utc ≤ t.dt.utc := by simpa using hle
  have hp : Proper offs (t.dt.to s'.ep.zone) := by rw [h.clock.zone, to_proper]; rfl
  obtain ⟨r1, r2, r3, _⟩ := h.inv.feed ho.2 hT
    ⟨s'.ep.zone, some (({ s'.ep with lastTick := { t with dt := t.dt.to s'.ep.zone } } : Epic).isMarketOpen,
      ordOf (t.dt.to s'.ep.zone).wall)⟩ (tick := { t with dt := t.dt.to s'.ep.zone }) hp
    (fun b hb => le_trans (h.now b hb) hle)
  obtain ⟨a, b, e1, e2, e3⟩ := r3 ht
  obtain ⟨i, f, c1, c2⟩ := zfeed_last ht
  refine ⟨i, f, a, b, c1, ?_, e2, e3, ?_⟩
  · rcases r1.current with ⟨_, h2, _⟩ | ⟨i', f', n', k, _, _, _, h4, h5, h6, h7⟩
    · rw [h2] at c1; cases c1
    · rw [h4] at c1
      cases c1
      rw [h5] at e1
      have e1 : (f.periodStart, f.periodEnd) = (a, some b) := Option.some.inj e1
      exact ⟨congrArg Prod.fst e1, congrArg Prod.snd e1⟩
  · rw [c2, h.clock.zone]
    rfl

/-- C89: no command makes a loop of the library run forever. -/
theorem C89_terminates (offs : ℕ → ℤ) (ho : Spec.Table offs) (u : Unit') (q : ℤ) (ha : Spec.Accepted u q) (m : ℕ) (s : ZState)
    (hs : Spec.NewEpic offs u q m s) (l : List ZCmd) (t : Tick) : ((s.run offs l).exec offs (.tick t)).2 ≠ some .diverge := by
  have hT := accepted_tiles ha
  have h := ZRun.run ho hT l (hs.zrun ho)
  generalize s.run offs l = s' at h
  generalize Spec.zoneAfter m l = n at h
  have hlt : (t.dt.to s'.ep.zone).lt s'.ep.lastTick.dt = decide (t.dt.utc < s'.ep.lastTick.dt.utc) := by
    rw [h.clock.zone, to_proper, (atZone_proper offs n _).lt h.clock.last]
    rfl
  unfold ZState.exec
  dsimp only
  rw [hlt]
  split_ifs with hle
  · exact fun h => by cases h
  · have hle : s'.ep.lastTick.dt.utc ≤ t.dt.utc := by simpa using hle
    have hp : Proper offs (t.dt.to s'.ep.zone) := by rw [h.clock.zone, to_proper]; rfl
    exact (h.inv.feed ho.2 hT
      ⟨s'.ep.zone, some (({ s'.ep with lastTick := { t with dt := t.dt.to s'.ep.zone } } : Epic).isMarketOpen,
        ordOf (t.dt.to s'.ep.zone).wall)⟩ (tick := { t with dt := t.dt.to s'.ep.zone }) hp
      (fun b hb => le_trans (h.now b hb) hle)).2.2.2

/-- Spec: the `i`-th frame ever made has the period from `a` to `b`, whose datetimes are in zone `n`. -/
def Spec.Made (s : ZState) (i : ℕ) (a b : ℤ) (n : ℕ) : Prop :=
  ∃ f, s.set.fs.heap[i]? = some f ∧ Spec.Period f a b ∧ s.set.zones[i]? = some n

/-- C89: every frame ever made begins at a boundary of the clock of its zone and ends at the next one. -/
theorem C89_boundaries (offs : ℕ → ℤ) (ho : Spec.Table offs) (u : Unit') (q : ℤ) (ha : Spec.Accepted u q) (m : ℕ) (s : ZState)
    (hs : Spec.NewEpic offs u q m s) (l : List ZCmd) (i : ℕ) (hi : i < (s.run offs l).set.fs.heap.length) :
    ∃ a b n, Spec.Made (s.run offs l) i a b n ∧ Spec.Aligned u q (a + offs n) ∧ Spec.Aligned u q (b + offs n) ∧ a < b ∧
      ∀ x, a < x → x < b → ¬ Spec.Aligned u q (x + offs n) := by
  have hT := accepted_tiles ha
  have h := (ZRun.run ho hT l (hs.zrun ho)).inv
  generalize s.run offs l = s' at h hi
  have hz : i < s'.set.zones.length := by rw [h.zones]; exact hi
  obtain ⟨k, k1, k2⟩ := h.period i (s'.set.fs.heap[i]).bounds (s'.set.zones[i])
    (by rw [List.getElem?_map, List.getElem?_eq_getElem hi]; rfl) (List.getElem?_eq_getElem hz)
  refine ⟨grid u q k - offs (s'.set.zones[i]), grid u q (k + 1) - offs (s'.set.zones[i]), s'.set.zones[i],
    ⟨s'.set.fs.heap[i], List.getElem?_eq_getElem hi, ⟨k1, k2⟩, List.getElem?_eq_getElem hz⟩, ?_, ?_, ?_, ?_⟩
  · rw [sub_add_cancel, aligned_iff_grid hT]; exact ⟨k, rfl⟩
  · rw [sub_add_cancel, aligned_iff_grid hT]; exact ⟨k + 1, rfl⟩
  · have := grid_strictMono hT (show k < k + 1 by omega)
    omega
  · intro x h1 h2 hx
    obtain ⟨j, hj⟩ := (aligned_iff_grid hT _).mp hx
    have a1 : grid u q k < grid u q j := by omega
    have a2 : grid u q j < grid u q (k + 1) := by omega
    have b1 := (grid_strictMono hT).lt_iff_lt.mp a1
    have b2 := (grid_strictMono hT).lt_iff_lt.mp a2
    omega

/-- C89: no time between two frames is lost, and later frames begin later: a frame begins after the beginning of the frame before
it and not after its end. -/
theorem C89_no_gap (offs : ℕ → ℤ) (ho : Spec.Table offs) (u : Unit') (q : ℤ) (ha : Spec.Accepted u q) (m : ℕ) (s : ZState)
    (hs : Spec.NewEpic offs u q m s) (l : List ZCmd) (i : ℕ) (a b a' b' : ℤ) (n n' : ℕ)
    (h1 : Spec.Made (s.run offs l) i a b n) (h2 : Spec.Made (s.run offs l) (i + 1) a' b' n') : a < a' ∧ a' ≤ b := by
  have h := (ZRun.run ho (accepted_tiles ha) l (hs.zrun ho)).inv
  obtain ⟨f, f1, ⟨f2, f3⟩, _⟩ := h1
  obtain ⟨g, g1, ⟨g2, g3⟩, _⟩ := h2
  obtain ⟨r1, e, r2, r3⟩ := h.linked i f.bounds g.bounds (by rw [List.getElem?_map, f1]; rfl) (by rw [List.getElem?_map, g1]; rfl)
  have r1 : f.periodStart < g.periodStart := r1
  have r2 : f.periodEnd = some e := r2
  have r3 : g.periodStart ≤ e := r3
  rw [f3] at r2
  cases r2
  omega

/-! ## Assignments that do not matter -/

/-- Spec: the program without its assignments. -/
def Spec.unassigned (l : List ZCmd) : List ZCmd := l.filter (fun c => match c with | .zone _ => false | _ => true)

/-- Spec: no indicator is computed in market hours only. -/
def Spec.allHours (l : List ZCmd) : Prop := ∀ ind, ZCmd.indicator ind ∈ l → ind.marketOpenOnly = false

/-- Two runs, the second one in zone `m` all the time. -/
structure Together (offs : ℕ → ℤ) (u : Unit') (q : ℤ) (m n : ℕ) (s s' : ZState) : Prop where
  clock : ZClock offs n s
  clock' : ZClock offs m s'
  unit : s.set.fs.unit = u
  qty : s.set.fs.qty = q
  freed : FreedSet s.set.fs
  last : s'.ep.lastTick.dt.utc = s.ep.lastTick.dt.utc
  set : s'.set = Spec.inZone offs m s.set

theorem Together.tick {offs : ℕ → ℤ} {u : Unit'} {q : ℤ} (hT : u ≠ .tick → Tiles u q) {m n : ℕ}
    (hb : ∀ n, Spec.SameBoundaries u q (offs n) (offs m)) {s s' : ZState} (h : Together offs u q m n s s') (t : Tick) :
    Together offs u q m n (s.exec offs (.tick t)).1 (s'.exec offs (.tick t)).1 ∧
      (s'.exec offs (.tick t)).2 = (s.exec offs (.tick t)).2 := by
  have hlt : (t.dt.to s.ep.zone).lt s.ep.lastTick.dt = decide (t.dt.utc < s.ep.lastTick.dt.utc) := by
    rw [h.clock.zone, to_proper, (atZone_proper offs n _).lt h.clock.last]
    rfl
  have hlt' : (t.dt.to s'.ep.zone).lt s'.ep.lastTick.dt = decide (t.dt.utc < s.ep.lastTick.dt.utc) := by
    rw [h.clock'.zone, to_proper, (atZone_proper offs m _).lt h.clock'.last, h.last]
    rfl
  have hc1 := h.clock.exec (.tick t)
  have hc2 := h.clock'.exec (.tick t)
  revert hc1 hc2
  unfold ZState.exec
  dsimp only
  rw [hlt, hlt']
  split_ifs with hle
  · intro _ _
    exact ⟨h, rfl⟩
  · intro hc1 hc2
    dsimp only at hc1 hc2 ⊢
    have hp : Proper offs (t.dt.to s.ep.zone) := by rw [h.clock.zone, to_proper]; rfl
    -- the same call as with the market state of the other run
    obtain ⟨f1, f2⟩ := zfeed_freed (offs := offs) h.freed
      (c := ⟨s.ep.zone, some (({ s.ep with lastTick := { t with dt := t.dt.to s.ep.zone } } : Epic).isMarketOpen,
        ordOf (t.dt.to s.ep.zone).wall)⟩)
      (c' := ⟨s'.ep.zone, some (({ s'.ep with lastTick := { t with dt := t.dt.to s'.ep.zone } } : Epic).isMarketOpen,
        ordOf (t.dt.to s.ep.zone).wall)⟩) rfl rfl { t with dt := t.dt.to s.ep.zone }
    obtain ⟨g1, g2, g3⟩ := inZone_feed (m := m) hT hb s.set h.unit h.qty (tick := { t with dt := t.dt.to s.ep.zone }) hp
      ({ s'.ep with lastTick := { t with dt := t.dt.to s'.ep.zone } } : Epic).isMarketOpen s'.ep.zone rfl
    have e1 : Spec.redateTick (fun d => atZone offs m d.utc) { t with dt := t.dt.to s.ep.zone } =
        { t with dt := t.dt.to s'.ep.zone } := by
      rw [h.clock'.zone, to_proper]
      rfl
    have e2 : atZone offs m ({ t with dt := t.dt.to s.ep.zone } : Tick).dt.utc = t.dt.to s'.ep.zone := by
      rw [h.clock'.zone, to_proper]
      rfl
    rw [e1, e2] at g1
    rw [← h.set] at g1
    dsimp only at f1 f2 g1 g2 g3
    refine ⟨⟨hc1, hc2, ?_, ?_, f2, rfl, ?_⟩, ?_⟩
    · dsimp only; rw [f1]; exact g2
    · dsimp only; rw [f1]; exact g3
    · dsimp only; rw [f1, g1]
    · rw [f1, g1]

theorem together_run {offs : ℕ → ℤ} {u : Unit'} {q : ℤ} (hT : u ≠ .tick → Tiles u q) {m : ℕ}
    (hb : ∀ n, Spec.SameBoundaries u q (offs n) (offs m)) (l : List ZCmd) : Spec.allHours l → ∀ {n : ℕ} {s s' : ZState},
    Together offs u q m n s s' →
    Together offs u q m (Spec.zoneAfter n l) (s.run offs l) (s'.run offs (Spec.unassigned l)) := by
  induction l with
  | nil => intro _ n s s' h; exact h
  | cons c l ih =>
    intro hl n s s' h
    have hl' : Spec.allHours l := fun ind hi => hl ind (List.mem_cons_of_mem _ hi)
    rcases c with t | (_ | k) | ind
    · exact ih hl' (h.tick hT hb t).1
    · exact ih hl' h
    · exact ih hl' (n := k) ⟨⟨rfl, h.clock.last⟩, h.clock', h.unit, h.qty, h.freed, h.last, h.set⟩
    · apply ih hl' (n := n)
      have hi := hl ind (List.mem_cons_self ..)
      have hh : (s.set.fs.addIndicator ind).1.heap = s.set.fs.heap ∧ (s.set.fs.addIndicator ind).1.frames = s.set.fs.frames ∧
          (s.set.fs.addIndicator ind).1.unit = s.set.fs.unit ∧ (s.set.fs.addIndicator ind).1.qty = s.set.fs.qty := by
        unfold FrameSet.addIndicator
        rcases ind.kind <;> exact ⟨rfl, rfl, rfl, rfl⟩
      refine ⟨⟨h.clock.zone, h.clock.last⟩, ⟨h.clock'.zone, h.clock'.last⟩, hh.2.2.1.trans h.unit, hh.2.2.2.trans h.qty,
        addIndicator_freed h.freed hi, h.last, ?_⟩
      unfold ZState.exec
      dsimp only
      rw [h.set]
      unfold Spec.inZone FrameSet.addIndicator Spec.redateSet
      dsimp only
      rcases ind.kind <;> rfl

/-- C89 (partial: seconds, minutes and hours, and offsets that differ from the first one by whole periods; frame sets of ticks
whatever the offsets; indicators not limited to market hours): the frames are those of the run without assignments, with the same
instants, ticks, prices and indicator values. -/
theorem C89_unaffected_partial (offs : ℕ → ℤ) (ho : Spec.Table offs) (u : Unit') (q : ℤ) (ha : u = .tick ∨ Spec.Accepted u q)
    (m : ℕ) (s : ZState) (hs : Spec.NewEpic offs u q m s) (hi : ∀ p ∈ s.set.fs.indicators, p.2.marketOpenOnly = false)
    (hb : ∀ n, Spec.SameBoundaries u q (offs n) (offs m)) (l : List ZCmd) (hl : Spec.allHours l) :
    Spec.inZone offs m (s.run offs l).set = (s.run offs (Spec.unassigned l)).set := by
  have h0 : Together offs u q m m s s := by
    refine ⟨hs.clock ho, hs.clock ho, hs.unit, hs.qty, ⟨hi, by intro f hf; rw [hs.heap] at hf; cases hf⟩, rfl, ?_⟩
    have hh := hs.heap
    have hz := hs.zones
    rcases hset : s.set with ⟨fs, zs⟩
    rw [hset] at hh hz
    unfold Spec.inZone Spec.redateSet
    dsimp only at hh hz ⊢
    rw [hz, hh]
    rcases fs with ⟨a, b, c, d, e, f⟩
    dsimp only at hh ⊢
    rw [hh]; rfl
  have hT : u ≠ .tick → Tiles u q := by
    intro hu
    rcases ha with h | h
    · exact absurd h hu
    · exact accepted_tiles h
  exact (together_run hT hb l hl h0).set.symm

/-! ## No assignments: the world of the other properties -/

/-- Spec: the same commands for the first epic of a world and its frame set `ref`. -/
def Spec.worldCmd (ref : String) : ZCmd → List Cmd
  | .tick t => [.tick 0 t]
  | .indicator ind => [.addIndicator 0 ref ind]
  | .zone _ => []

/-- Spec: the epic of a world that corresponds to a state whose frames are all in zone `n`. -/
def Spec.worldEpic (offs : ℕ → ℤ) (n : ℕ) (ref : String) (s : ZState) : Epic :=
  { s.ep with frameSets := [(ref, Spec.walls offs n s.set)], strategies := [] }

theorem worldEpic_step {offs : ℕ → ℤ} {n : ℕ} (ref : String) {s : ZState} (hz : ZClock offs n s) (ho : OneZone n s.set) (c : ZCmd)
    (hc : ∀ k, c ≠ .zone k) :
    (Spec.worldCmd ref c).foldl frontStep [Spec.worldEpic offs n ref s] = [Spec.worldEpic offs n ref (s.exec offs c).1] ∧
      OneZone n (s.exec offs c).1.set := by
  rcases c with t | k | ind
  · unfold Spec.worldCmd
    simp only [List.foldl_cons, List.foldl_nil, frontStep, List.getElem?_cons_zero]
    unfold ZState.exec
    dsimp only
    have e1 : (Spec.worldEpic offs n ref s).zone = s.ep.zone := rfl
    have e2 : (Spec.worldEpic offs n ref s).lastTick = s.ep.lastTick := rfl
    rw [e1, e2]
    split_ifs with h
    · exact ⟨rfl, ho⟩
    · obtain ⟨w1, w2⟩ := walls_feed (offs := offs) (n := n)
        (some (({ s.ep with lastTick := { t with dt := t.dt.to s.ep.zone } } : Epic).isMarketOpen, ordOf (t.dt.to s.ep.zone).wall)) ho
        (tick := { t with dt := t.dt.to s.ep.zone }) (by rw [hz.zone]; rfl)
      rw [← hz.zone] at w1 w2
      refine ⟨?_, w2⟩
      rw [List.set_cons_zero]
      have key : (updateFrameSets ⟨s.ep.zone, some (({ s.ep with lastTick := { t with dt := t.dt.to s.ep.zone } } : Epic).isMarketOpen,
          ordOf (t.dt.to s.ep.zone).wall)⟩ { t with dt := t.dt.to s.ep.zone } [(ref, Spec.walls offs n s.set)]).1 =
          [(ref, Spec.walls offs n (s.set.feed offs ⟨s.ep.zone,
            some (({ s.ep with lastTick := { t with dt := t.dt.to s.ep.zone } } : Epic).isMarketOpen,
              ordOf (t.dt.to s.ep.zone).wall)⟩ { t with dt := t.dt.to s.ep.zone }).1)] := by
        unfold updateFrameSets
        rw [w1]
        rcases s.set.feed offs ⟨s.ep.zone, some (({ s.ep with lastTick := { t with dt := t.dt.to s.ep.zone } } : Epic).isMarketOpen,
          ordOf (t.dt.to s.ep.zone).wall)⟩ { t with dt := t.dt.to s.ep.zone } with ⟨z', _ | err⟩ <;> rfl
      exact congrArg (fun fs => [({ s.ep with
        lastTick := { t with dt := t.dt.to s.ep.zone }
        marketOpen := ({ s.ep with lastTick := { t with dt := t.dt.to s.ep.zone } } : Epic).isMarketOpen
        frameSets := fs
        strategies := [] } : Epic)]) key
  · exact absurd rfl (hc k)
  · unfold Spec.worldCmd
    simp only [List.foldl_cons, List.foldl_nil, frontStep, List.getElem?_cons_zero]
    have e3 : (Spec.worldEpic offs n ref s).frameSets = [(ref, Spec.walls offs n s.set)] := rfl
    have hg : Dict.get? [(ref, Spec.walls offs n s.set)] ref = some (Spec.walls offs n s.set) := by
      rw [Dict.get?_cons]; simp
    rw [e3, hg]
    have hset : Dict.set [(ref, Spec.walls offs n s.set)] ref ((Spec.walls offs n s.set).addIndicator ind).1 =
        [(ref, ((Spec.walls offs n s.set).addIndicator ind).1)] := by
      unfold Dict.set
      simp
    have hadd : ((Spec.walls offs n s.set).addIndicator ind).1 = Spec.walls offs n { s.set with fs := (s.set.fs.addIndicator ind).1 } := by
      unfold FrameSet.addIndicator Spec.walls Spec.redateSet
      dsimp only
      rcases ind.kind <;> rfl
    refine ⟨?_, ?_⟩
    · dsimp only
      rw [hset, hadd]
      rfl
    · have hh : (s.set.fs.addIndicator ind).1.heap = s.set.fs.heap := by
        unfold FrameSet.addIndicator
        rcases ind.kind <;> rfl
      unfold ZState.exec OneZone
      dsimp only
      rw [hh]
      exact ho

/-- C89: without assignments nothing is new: the frames are those of a world with that epic and that frame set, whatever its
strategies do, with wall clocks of the zone as bounds. -/
theorem C89_without (offs : ℕ → ℤ) (ho : Spec.Table offs) (u : Unit') (q : ℤ) (m : ℕ) (s : ZState) (hs : Spec.NewEpic offs u q m s)
    (env : Env) (w : World) (ref : String) (hw : w.epics.map Epic.front = [Spec.worldEpic offs m ref s]) (l : List ZCmd)
    (hl : ∀ k, ZCmd.zone k ∉ l) :
    (w.runCmds env (l.flatMap (Spec.worldCmd ref))).epics.map Epic.front = [Spec.worldEpic offs m ref (s.run offs l)] := by
  rw [runCmds_front, hw]
  have hone : OneZone m s.set := by unfold OneZone; rw [hs.zones, hs.heap]; rfl
  have hcl := hs.clock ho
  clear hw hs
  induction l generalizing s with
  | nil => rfl
  | cons c l ih =>
    have hc : ∀ k, c ≠ .zone k := fun k h => hl k (by rw [h]; exact List.mem_cons_self ..)
    obtain ⟨h1, h2⟩ := worldEpic_step ref hcl hone c hc
    rw [List.flatMap_cons, List.foldl_append, h1]
    refine ih (s.exec offs c).1 (fun k h => hl k (List.mem_cons_of_mem _ h)) h2 ?_
    have := hcl.exec c
    rcases c with t | k | ind
    · exact this
    · exact absurd rfl (hc k)
    · exact this

/-! ## Contiguity -/

/-- Full claim: frames are contiguous whatever zones are assigned. -/
def Spec.C89 : Prop :=
  ∀ (offs : ℕ → ℤ) (u : Unit') (q : ℤ) (m : ℕ) (s : ZState) (l : List ZCmd) (i : ℕ) (a b a' b' : ℤ) (n n' : ℕ),
    Spec.Table offs → Spec.Accepted u q → Spec.NewEpic offs u q m s →
    Spec.Made (s.run offs l) i a b n → Spec.Made (s.run offs l) (i + 1) a' b' n' → a' = b

end

namespace Demo

/-- UTC, a zone two hours behind, one two hours ahead, and one half an hour ahead. -/
def table : ℕ → ℤ
  | 1 => -2 * hourUs
  | 2 => 2 * hourUs
  | 3 => 30 * minUs
  | _ => 0

theorem table_ok : Spec.Table table := by
  refine ⟨rfl, fun n => ?_⟩
  unfold table
  split <;> decide

/-- An epic in UTC with a frame set. -/
def rezone (u : Unit') (q : ℤ) : ZState := ⟨Epic.new "e" (tableZone table 0) (8 * hourUs) (18 * hourUs) [] [] 0, ⟨⟨u, q, 100, [], [], []⟩, []⟩⟩

theorem rezone_new (u : Unit') (q : ℤ) : Spec.NewEpic table u q 0 (rezone u q) := ⟨rfl, rfl, rfl, rfl, rfl, rfl, rfl⟩

/-- Monday noon in UTC, then an assignment, then a tick in the first hours of Tuesday. -/
def switch (n : ℕ) : List ZCmd :=
  [.tick ⟨⟨monday + 12 * hourUs, monday + 12 * hourUs, 0⟩, 10, 11⟩, .zone (some n),
   .tick ⟨⟨monday + 25 * hourUs, monday + 25 * hourUs, 0⟩, 12, 13⟩]

end Demo

/-- C89 is false: daily frames in UTC, then the epic is moved two hours to the west: the frame of the tick at 01:00 UTC on Tuesday
(23:00 on Monday there) begins two hours after the beginning of the frame before it, at 02:00 UTC on Monday. -/
theorem C89_false : ¬ @Spec.C89 Arith.exact := by
  letI := Arith.exact
  intro h
  have := h Demo.table .day 1 0 (Demo.rezone .day 1) (Demo.switch 1) 0 Demo.monday (Demo.monday + 24 * hourUs)
    (Demo.monday + 2 * hourUs) (Demo.monday + 26 * hourUs) 0 1 Demo.table_ok (by unfold Spec.Accepted; decide) (Demo.rezone_new _ _)
    ⟨_, rfl, by unfold Spec.Period; decide +kernel, by decide +kernel⟩ ⟨_, rfl, by unfold Spec.Period; decide +kernel, by decide +kernel⟩
  revert this
  decide +kernel

/-- C89_tick_in_frame and C89_no_gap: the two frames of the witness overlap, and each contains its tick. -/
example : letI := Arith.exact
    (((Demo.rezone .day 1).run Demo.table ((Demo.switch 1).take 2)).exec Demo.table
      (.tick ⟨⟨Demo.monday + 25 * hourUs, Demo.monday + 25 * hourUs, 0⟩, 12, 13⟩)).2 = none ∧
    ((Demo.rezone .day 1).run Demo.table (Demo.switch 1)).set.zones = [0, 1] ∧
    Spec.zoneAfter 0 (Demo.switch 1) = 1 ∧ Spec.zoneAfter 0 [.zone (some 2), .zone none] = 2 := by
  letI := Arith.exact
  decide +kernel

/-- C89_ticks: a tick that is earlier on the clock of the new zone and later in time is accepted (12:00 UTC, then 13:00 UTC, which is
11:00 two hours to the west); one that is later on the clock and earlier in time is not. -/
example : letI := Arith.exact
    let s := (Demo.rezone .minute 5).run Demo.table ((Demo.switch 1).take 2)
    let s' := (Demo.rezone .minute 5).run Demo.table ((Demo.switch 2).take 2)
    (s.exec Demo.table (.tick ⟨⟨Demo.monday + 12 * hourUs + 4 * minUs, Demo.monday + 12 * hourUs + 4 * minUs, 0⟩, 12, 13⟩)).2 = none ∧
    (s.exec Demo.table (.tick ⟨⟨Demo.monday + 12 * hourUs + 4 * minUs, Demo.monday + 12 * hourUs + 4 * minUs, 0⟩, 12, 13⟩)).1.ep.lastTick.dt.wall =
      Demo.monday + 10 * hourUs + 4 * minUs ∧
    (s'.exec Demo.table (.tick ⟨⟨Demo.monday + 11 * hourUs, Demo.monday + 11 * hourUs, 0⟩, 12, 13⟩)).2 = some .epic := by
  letI := Arith.exact
  decide +kernel

/-- C89_market_open: at 17:00 UTC the market with hours 8 to 18 is open in UTC and closed two hours to the east. -/
example : letI := Arith.exact
    let t : Tick := ⟨⟨Demo.monday + 17 * hourUs, Demo.monday + 17 * hourUs, 0⟩, 12, 13⟩
    ((Demo.rezone .day 1).exec Demo.table (.tick t)).1.ep.marketOpen = true ∧
    (((Demo.rezone .day 1).exec Demo.table (.zone (some 2))).1.exec Demo.table (.tick t)).1.ep.marketOpen = false := by
  letI := Arith.exact
  decide +kernel

/-- C89_unaffected_partial: all the zones of the table have the same boundaries for frames of five minutes, and those of frames of one
hour differ. -/
example : (∀ n, Spec.SameBoundaries .minute 5 (Demo.table n) (Demo.table 0)) ∧
    ¬ Spec.SameBoundaries .hour 1 (Demo.table 3) (Demo.table 0) := by
  constructor
  · intro n
    rcases n with _ | _ | _ | _ | n
    · exact ⟨0, by decide⟩
    · exact ⟨-24, by decide⟩
    · exact ⟨24, by decide⟩
    · exact ⟨6, by decide⟩
    · exact ⟨0, rfl⟩
  · rintro ⟨k, hk⟩
    have hk : 30 * minUs = 0 + k * (1 * (60 * (60 * 1000000))) := hk
    unfold minUs secUs at hk
    omega

/-- C89_unaffected_partial: a run with two assignments and the one without them. -/
example : letI := Arith.exact
    let l : List ZCmd := [.indicator ⟨"i", .japanese, false⟩, .tick ⟨⟨Demo.monday + 12 * hourUs, Demo.monday + 12 * hourUs, 0⟩, 10, 11⟩,
      .zone (some 1), .tick ⟨⟨Demo.monday + 12 * hourUs + 4 * minUs, Demo.monday + 12 * hourUs + 4 * minUs, 0⟩, 14, 15⟩,
      .zone (some 3), .tick ⟨⟨Demo.monday + 12 * hourUs + 12 * minUs, Demo.monday + 12 * hourUs + 12 * minUs, 0⟩, 12, 13⟩]
    ((Demo.rezone .minute 5).run Demo.table l).set.zones = [0, 0, 3] ∧
    ((Demo.rezone .minute 5).run Demo.table l).set ≠ ((Demo.rezone .minute 5).run Demo.table (Spec.unassigned l)).set ∧
    Spec.inZone Demo.table 0 ((Demo.rezone .minute 5).run Demo.table l).set =
      ((Demo.rezone .minute 5).run Demo.table (Spec.unassigned l)).set := by
  letI := Arith.exact
  decide +kernel

/-- C89_without: a world for a state. -/
example : letI := Arith.exact
    ∃ w : World, w.epics.map Epic.front = [Spec.worldEpic Demo.table 0 "f" (Demo.rezone .hour 1)] :=
  ⟨{ epics := [Spec.worldEpic Demo.table 0 "f" (Demo.rezone .hour 1)], strategies := [], trades := [], providers := [], log := [] }, rfl⟩

/-- C89 (eastwards): the second frame begins two hours before the end of the first one. -/
example : letI := Arith.exact
    Spec.Made ((Demo.rezone .day 1).run Demo.table (Demo.switch 2)) 1 (Demo.monday + 22 * hourUs) (Demo.monday + 46 * hourUs) 2 := by
  letI := Arith.exact
  exact ⟨_, rfl, by unfold Spec.Period; decide +kernel, by decide +kernel⟩

end Estrade
