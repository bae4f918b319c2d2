import Verif.Lemmas.Markets
import Verif.Props.Rezone

/-!
# C103: a frame set shared by epics of different timezones
(estrade/epic.py, estrade/graph/frame_set.py, estrade/mixins/timeframe.py)

Zones of constant offset; `offs n` is the offset of zone `n` and zone 0 is UTC.
-/

set_option linter.style.haveILetI false
set_option linter.unusedSectionVars false
set_option autoImplicit false

namespace Estrade

/-- Spec: new epics, each in some zone of the table, and new frame sets. -/
structure Spec.NewMarkets (offs : ℕ → ℤ) (d : ZDesk) : Prop where
  epics : ∀ x ∈ d.epics, x.1.lastTick = Tick.epoch ∧ ∃ n, x.1.zone = tableZone offs n
  objs : ∀ o ∈ d.objs, o.owner = none ∧ o.set.fs.heap = [] ∧ o.set.fs.frames = [] ∧ o.set.zones = []

/-- Spec: epic `e` holds frame set `j`. -/
def Spec.HoldsSet (d : ZDesk) (e j : ℕ) : Prop := ∃ x ref, d.epics[e]? = some x ∧ (ref, j) ∈ x.2

/-- Spec: frame set `j` has unit `u` and quantity `q`. -/
def Spec.Timeframe (d : ZDesk) (j : ℕ) (u : Unit') (q : ℤ) : Prop :=
  ∃ o, d.objs[j]? = some o ∧ o.set.fs.unit = u ∧ o.set.fs.qty = q

/-- Spec: the zone of epic `e` is `n`. -/
def Spec.ZoneOf (offs : ℕ → ℤ) (d : ZDesk) (e n : ℕ) : Prop := ∃ x, d.epics[e]? = some x ∧ x.1.zone = tableZone offs n

/-- Spec: zone `n` was that of an epic, at the beginning or assigned later. -/
def Spec.Used (offs : ℕ → ℤ) (d : ZDesk) (l : List ZDCmd) (n : ℕ) : Prop :=
  (∃ e, Spec.ZoneOf offs d e n) ∨ ∃ e, ZDCmd.zone e (some n) ∈ l

/-- Spec: the instant is not before a tick given to any epic. -/
def Spec.NotBefore (l : List ZDCmd) (x : ℤ) : Prop := ∀ e t, ZDCmd.tick e t ∈ l → t.dt.utc ≤ x

/-- Spec: a tick in zone `n`. -/
def Spec.tickIn (offs : ℕ → ℤ) (n : ℕ) (t : Tick) : Tick := { t with dt := ⟨t.dt.utc, t.dt.utc + offs n, n⟩ }

/-- Spec: the `i`-th frame ever made in frame set `j` has the period from `a` to `b`, whose datetimes are in zone `n`. -/
def Spec.MadeIn (d : ZDesk) (j i : ℕ) (a b : ℤ) (n : ℕ) : Prop :=
  ∃ o f, d.objs[j]? = some o ∧ o.set.fs.heap[i]? = some f ∧ Spec.Period f a b ∧ o.set.zones[i]? = some n

section
variable [Arith]

/-! ## Runs -/

/-- What holds in a run: `Z` are the zones of the epics, `B` bounds of the ticks. -/
structure MInv (offs : ℕ → ℤ) (Z : ℕ → Prop) (B : ℤ → Prop) (j : ℕ) (u : Unit') (q : ℤ) (d : ZDesk) : Prop where
  clock : ∀ x ∈ d.epics, ∃ n, Z n ∧ x.1.zone = tableZone offs n ∧ Proper offs x.1.lastTick.dt
  obj : ∃ o, d.objs[j]? = some o
  inv : ∀ o, d.objs[j]? = some o → ZInv offs u q o.set ∧ ∀ n ∈ o.set.zones, Z n
  now : ∀ x, B x → ∀ o, d.objs[j]? = some o → ∀ b, o.set.now = some b → b.1 ≤ x

/-- The calls that a run may have. -/
def MOk (Z : ℕ → Prop) (B : ℤ → Prop) : ZDCmd → Prop
  | .tick _ t => ∀ x, B x → t.dt.utc ≤ x
  | .zone _ (some n) => Z n
  | _ => True

theorem feedZObjs_length {offs : ℕ → ℤ} {z : Zone} {epics : List (Epic × Dict ℕ)} {t : Tick} (r : Dict ℕ) : ∀ objs : List ZObj,
    (feedZObjs offs z epics t objs r).1.length = objs.length := by
  induction r with
  | nil => intro objs; rfl
  | cons p r ih =>
    intro objs
    obtain ⟨k, i⟩ := p
    unfold feedZObjs
    rcases objs[i]? with _ | o
    · rfl
    · dsimp only
      rcases o.set.feed offs (o.ctx z epics) t with ⟨s, _ | err⟩
      · dsimp only; rw [ih, List.length_set]
      · exact List.length_set

/-- A tick on a clock that holds. -/
theorem mtick_lt {offs : ℕ → ℤ} {n : ℕ} {ep : Epic} (hz : ep.zone = tableZone offs n) (hp : Proper offs ep.lastTick.dt) (t : Tick) :
    (t.dt.to ep.zone).lt ep.lastTick.dt = decide (t.dt.utc < ep.lastTick.dt.utc) := by
  rw [hz, to_proper, (atZone_proper offs n _).lt hp]
  rfl

theorem MInv.exec {offs : ℕ → ℤ} (ho : Spec.Table offs) {u : Unit'} {q : ℤ} (hT : Tiles u q) {Z : ℕ → Prop} {B : ℤ → Prop} {j : ℕ}
    {d : ZDesk} (h : MInv offs Z B j u q d) (c : ZDCmd) (hc : MOk Z B c) : MInv offs Z B j u q (d.exec offs c).1 := by
  rcases c with ⟨e, t⟩ | ⟨e, i⟩ | ⟨i, ind⟩ | ⟨e, k⟩
  · change MInv offs Z B j u q (d.tick offs e t).1
    unfold ZDesk.tick
    rcases he : d.epics[e]? with _ | ⟨ep, r⟩
    · exact h
    · obtain ⟨n, n1, n2, n3⟩ := h.clock _ (List.mem_of_getElem? he)
      dsimp only
      rw [mtick_lt n2 n3]
      split_ifs with hlt
      · exact h
      · have hp : Proper offs (t.dt.to ep.zone) := by
          have e1 : ep.zone = tableZone offs n := n2
          rw [e1, to_proper]; rfl
        have htz : (t.dt.to ep.zone).tz = n := by
          have e1 : ep.zone = tableZone offs n := n2
          rw [e1]; rfl
        dsimp only
        have key := feedZObjs_kept (offs := offs) (z := ep.zone)
          (epics := d.epics.set e ({ ep with
            lastTick := { t with dt := t.dt.to ep.zone }
            marketOpen := ({ ep with lastTick := { t with dt := t.dt.to ep.zone } } : Epic).isMarketOpen }, r))
          (t := { t with dt := t.dt.to ep.zone })
          (fun s => (ZInv offs u q s ∧ ∀ n ∈ s.zones, Z n) ∧ ∀ x, B x → ∀ b, s.now = some b → b.1 ≤ x)
          (by
            rintro s c ⟨⟨s1, s2⟩, s3⟩
            obtain ⟨r1, r2, _⟩ := s1.feed_any ho.2 hT c (tick := { t with dt := t.dt.to ep.zone }) hp
            refine ⟨⟨r1, fun m hm => ?_⟩, fun x hx => r2 x (hc x hx) (s3 x hx)⟩
            rcases (zfeed_zones s c _).1 m hm with hm | rfl
            · exact s2 m hm
            · change Z (t.dt.to ep.zone).tz
              rw [htz]; exact n1) j r d.objs
          (fun o hj => ⟨h.inv o hj, fun x hx => h.now x hx o hj⟩)
        refine ⟨?_, ?_, fun o hj => (key o hj).1, fun x hx o hj => (key o hj).2 x hx⟩
        · intro x hx
          rcases List.mem_or_eq_of_mem_set hx with hx | rfl
          · exact h.clock x hx
          · exact ⟨n, n1, n2, hp⟩
        · obtain ⟨o, hj⟩ := h.obj
          have hlt := (List.getElem?_eq_some_iff.mp hj).1
          exact ⟨_, List.getElem?_eq_getElem (by rw [feedZObjs_length]; exact hlt)⟩
  · change MInv offs Z B j u q (d.add e i).1
    unfold ZDesk.add
    rcases he : d.epics[e]? with _ | ⟨ep, r⟩
    · exact h
    · rcases hi : d.objs[i]? with _ | o
      · exact h
      · dsimp only
        rcases r.get? o.ref with _ | _
        · dsimp only
          have hs : ∀ o', (d.objs.set i { o with owner := some e })[j]? = some o' → ∃ o'', d.objs[j]? = some o'' ∧ o''.set = o'.set := by
            intro o' ho'
            rw [List.getElem?_set] at ho'
            split_ifs at ho' with h1 h2
            · cases ho'
              subst h1
              exact ⟨o, hi, rfl⟩
            · exact ⟨o', ho', rfl⟩
          refine ⟨?_, ?_, ?_, ?_⟩
          · intro x hx
            rcases List.mem_or_eq_of_mem_set hx with hx | rfl
            · exact h.clock x hx
            · exact h.clock (ep, r) (List.mem_of_getElem? he)
          · obtain ⟨o', hj⟩ := h.obj
            have hlt := (List.getElem?_eq_some_iff.mp hj).1
            exact ⟨_, List.getElem?_eq_getElem (by rw [List.length_set]; exact hlt)⟩
          · intro o' hj
            obtain ⟨o'', h1, h2⟩ := hs o' hj
            rw [← h2]; exact h.inv o'' h1
          · intro x hx o' hj
            obtain ⟨o'', h1, h2⟩ := hs o' hj
            rw [← h2]; exact h.now x hx o'' h1
        · exact h
  · change MInv offs Z B j u q (d.addIndicator i ind).1
    unfold ZDesk.addIndicator
    rcases hi : d.objs[i]? with _ | o
    · exact h
    · dsimp only
      have hh : (o.set.fs.addIndicator ind).1.heap = o.set.fs.heap ∧ (o.set.fs.addIndicator ind).1.frames = o.set.fs.frames ∧
          (o.set.fs.addIndicator ind).1.unit = o.set.fs.unit ∧ (o.set.fs.addIndicator ind).1.qty = o.set.fs.qty := by
        unfold FrameSet.addIndicator
        rcases ind.kind <;> exact ⟨rfl, rfl, rfl, rfl⟩
      have hs : ∀ o', (d.objs.set i { o with set := { o.set with fs := (o.set.fs.addIndicator ind).1 } })[j]? = some o' →
          (ZInv offs u q o'.set ∧ ∀ n ∈ o'.set.zones, Z n) ∧ ∀ x, B x → ∀ b, o'.set.now = some b → b.1 ≤ x := by
        intro o' ho'
        rw [List.getElem?_set] at ho'
        split_ifs at ho' with h1 h2
        · cases ho'
          subst h1
          obtain ⟨g1, g2⟩ := h.inv o hi
          refine ⟨⟨⟨hh.2.2.1.trans g1.unit, hh.2.2.2.trans g1.qty, ?_, ?_, ?_, ?_⟩, g2⟩, ?_⟩
          · dsimp only; rw [hh.1]; exact g1.zones
          · dsimp only; rw [hh.1, hh.2.1]; exact g1.last
          · dsimp only; rw [hh.1]; exact g1.period
          · dsimp only; rw [hh.1]; exact g1.linked
          · unfold ZFrameSet.now; dsimp only; rw [hh.1]
            intro x hx
            exact h.now x hx o hi
        · exact ⟨h.inv o' ho', fun x hx => h.now x hx o' ho'⟩
      refine ⟨h.clock, ?_, fun o' hj => (hs o' hj).1, fun x hx o' hj => (hs o' hj).2 x hx⟩
      obtain ⟨o', hj⟩ := h.obj
      have hlt := (List.getElem?_eq_some_iff.mp hj).1
      exact ⟨_, List.getElem?_eq_getElem (by rw [List.length_set]; exact hlt)⟩
  · change MInv offs Z B j u q (d.setZone offs e k).1
    unfold ZDesk.setZone
    rcases he : d.epics[e]? with _ | ⟨ep, r⟩
    · exact h
    · rcases k with _ | n
      · exact h
      · refine ⟨?_, h.obj, h.inv, h.now⟩
        intro x hx
        rcases List.mem_or_eq_of_mem_set hx with hx | rfl
        · exact h.clock x hx
        · obtain ⟨_, _, _, n3⟩ := h.clock _ (List.mem_of_getElem? he)
          exact ⟨n, hc, rfl, n3⟩

theorem MInv.run {offs : ℕ → ℤ} (ho : Spec.Table offs) {u : Unit'} {q : ℤ} (hT : Tiles u q) {Z : ℕ → Prop} {B : ℤ → Prop} {j : ℕ}
    (l : List ZDCmd) : (∀ c ∈ l, MOk Z B c) → ∀ {d : ZDesk}, MInv offs Z B j u q d → MInv offs Z B j u q (d.run offs l) := by
  induction l with
  | nil => intro _ d h; exact h
  | cons c l ih =>
    intro hl d h
    exact ih (fun c hc => hl c (List.mem_cons_of_mem _ hc)) (h.exec ho hT c (hl c List.mem_cons_self))

theorem epoch_proper {offs : ℕ → ℤ} (ho : Spec.Table offs) : Proper offs Tick.epoch.dt := by
  unfold Proper
  change Tick.epoch.dt.wall = Tick.epoch.dt.utc + offs 0
  rw [ho.1]
  rfl

theorem Spec.NewMarkets.minv {offs : ℕ → ℤ} (ho : Spec.Table offs) {d : ZDesk} (hd : Spec.NewMarkets offs d) {j : ℕ} {u : Unit'} {q : ℤ}
    (hj : Spec.Timeframe d j u q) (l : List ZDCmd) : MInv offs (Spec.Used offs d l) (Spec.NotBefore l) j u q d := by
  obtain ⟨o, h1, h2, h3⟩ := hj
  obtain ⟨g1, g2, g3, g4⟩ := hd.objs o (List.mem_of_getElem? h1)
  refine ⟨?_, ⟨o, h1⟩, ?_, ?_⟩
  · intro x hx
    obtain ⟨e, he⟩ := List.getElem?_of_mem hx
    obtain ⟨x1, n, x2⟩ := hd.epics x hx
    refine ⟨n, .inl ⟨e, x, he, x2⟩, x2, ?_⟩
    rw [x1]
    exact epoch_proper ho
  · intro o' ho'
    rw [h1] at ho'
    cases ho'
    refine ⟨⟨h2, h3, ?_, ?_, ?_, ?_⟩, ?_⟩
    · rw [g4, g2]; rfl
    · rw [g2, g3]; rfl
    · intro i b n hb
      rw [g2] at hb
      cases hb
    · intro i a b ha
      rw [g2] at ha
      cases ha
    · intro n hn
      rw [g4] at hn
      cases hn
  · intro x _ o' ho' b hb
    rw [h1] at ho'
    cases ho'
    unfold ZFrameSet.now at hb
    rw [g2] at hb
    cases hb

theorem mok_all (offs : ℕ → ℤ) (d : ZDesk) (l : List ZDCmd) : ∀ c ∈ l, MOk (Spec.Used offs d l) (Spec.NotBefore l) c := by
  intro c hc
  rcases c with ⟨e, t⟩ | ⟨e, i⟩ | ⟨i, ind⟩ | ⟨e, _ | n⟩
  · intro x hx
    exact hx e t hc
  · trivial
  · trivial
  · trivial
  · exact .inr ⟨e, hc⟩

/-- The invariant of a run. -/
theorem Spec.NewMarkets.run {offs : ℕ → ℤ} (ho : Spec.Table offs) {d : ZDesk} (hd : Spec.NewMarkets offs d) {j : ℕ} {u : Unit'} {q : ℤ}
    (ha : Spec.Accepted u q) (hj : Spec.Timeframe d j u q) (l : List ZDCmd) :
    MInv offs (Spec.Used offs d l) (Spec.NotBefore l) j u q (d.run offs l) :=
  MInv.run ho (accepted_tiles ha) l (mok_all offs d l) (hd.minv ho hj l)

/-! ## Ticks -/

theorem mclock_exec {offs : ℕ → ℤ} {d : ZDesk} (h : ∀ x ∈ d.epics, ∃ n, x.1.zone = tableZone offs n ∧ Proper offs x.1.lastTick.dt)
    (c : ZDCmd) : ∀ x ∈ (d.exec offs c).1.epics, ∃ n, x.1.zone = tableZone offs n ∧ Proper offs x.1.lastTick.dt := by
  rcases c with ⟨e, t⟩ | ⟨e, i⟩ | ⟨i, ind⟩ | ⟨e, k⟩
  · change ∀ x ∈ (d.tick offs e t).1.epics, _
    unfold ZDesk.tick
    rcases he : d.epics[e]? with _ | ⟨ep, r⟩
    · exact h
    · obtain ⟨n, n2, n3⟩ := h _ (List.mem_of_getElem? he)
      dsimp only
      split_ifs
      · exact h
      · intro x hx
        rcases List.mem_or_eq_of_mem_set hx with hx | rfl
        · exact h x hx
        · refine ⟨n, n2, ?_⟩
          have e1 : ep.zone = tableZone offs n := n2
          dsimp only
          rw [e1, to_proper]; rfl
  · change ∀ x ∈ (d.add e i).1.epics, _
    unfold ZDesk.add
    rcases he : d.epics[e]? with _ | ⟨ep, r⟩
    · exact h
    · rcases hi : d.objs[i]? with _ | o
      · exact h
      · dsimp only
        rcases r.get? o.ref with _ | _
        · intro x hx
          rcases List.mem_or_eq_of_mem_set hx with hx | rfl
          · exact h x hx
          · exact h (ep, r) (List.mem_of_getElem? he)
        · exact h
  · change ∀ x ∈ (d.addIndicator i ind).1.epics, _
    unfold ZDesk.addIndicator
    rcases hi : d.objs[i]? with _ | o <;> exact h
  · change ∀ x ∈ (d.setZone offs e k).1.epics, _
    unfold ZDesk.setZone
    rcases he : d.epics[e]? with _ | ⟨ep, r⟩
    · exact h
    · rcases k with _ | n
      · exact h
      · intro x hx
        rcases List.mem_or_eq_of_mem_set hx with hx | rfl
        · exact h x hx
        · obtain ⟨_, _, n3⟩ := h _ (List.mem_of_getElem? he)
          exact ⟨n, rfl, n3⟩

theorem mclock_run {offs : ℕ → ℤ} (l : List ZDCmd) : ∀ {d : ZDesk},
    (∀ x ∈ d.epics, ∃ n, x.1.zone = tableZone offs n ∧ Proper offs x.1.lastTick.dt) →
    ∀ x ∈ (d.run offs l).epics, ∃ n, x.1.zone = tableZone offs n ∧ Proper offs x.1.lastTick.dt := by
  induction l with
  | nil => intro d h; exact h
  | cons c l ih => intro d h; exact ih (mclock_exec h c)

/-- C103: an epic compares a tick with its own last tick only, as instants, and takes it in its own zone; the other epics are not
concerned. -/
theorem C103_ticks (offs : ℕ → ℤ) (ho : Spec.Table offs) (d : ZDesk) (hd : Spec.NewMarkets offs d) (l : List ZDCmd) (e : ℕ) (ep : Epic)
    (r : Dict ℕ) (he : (d.run offs l).epics[e]? = some (ep, r)) (t : Tick) :
    (t.dt.utc < ep.lastTick.dt.utc → (d.run offs l).exec offs (.tick e t) = (d.run offs l, some .epic)) ∧
    (ep.lastTick.dt.utc ≤ t.dt.utc → ∃ n ep', Spec.ZoneOf offs (d.run offs l) e n ∧
      ((d.run offs l).exec offs (.tick e t)).1.epics = (d.run offs l).epics.set e (ep', r) ∧
      ep'.zone = ep.zone ∧ ep'.lastTick = Spec.tickIn offs n t) := by
  have hc := mclock_run (offs := offs) l (d := d) (by
    intro x hx
    obtain ⟨x1, n, x2⟩ := hd.epics x hx
    exact ⟨n, x2, by rw [x1]; exact epoch_proper ho⟩)
  generalize d.run offs l = d' at hc he
  obtain ⟨n, n2, n3⟩ := hc _ (List.mem_of_getElem? he)
  have n2 : ep.zone = tableZone offs n := n2
  have hx : d'.exec offs (.tick e t) = d'.tick offs e t := rfl
  rw [hx]
  unfold ZDesk.tick
  rw [he]
  dsimp only
  rw [mtick_lt n2 n3]
  refine ⟨fun h => ?_, fun h => ?_⟩
  · rw [if_pos (decide_eq_true h)]
  · rw [if_neg (by rw [decide_eq_false (by omega)]; exact Bool.false_ne_true)]
    exact ⟨n, _, ⟨_, he, n2⟩, rfl, rfl, by dsimp only; rw [n2]; rfl⟩

/-- The frame sets of an epic after a tick that raises nothing. -/
theorem mtick_fed {offs : ℕ → ℤ} {d : ZDesk} (hc : ∀ x ∈ d.epics, ∃ n, x.1.zone = tableZone offs n ∧ Proper offs x.1.lastTick.dt)
    {e j : ℕ} (hold : Spec.HoldsSet d e j) {t : Tick} (hn : (d.exec offs (.tick e t)).2 = none) :
    ∃ n, Spec.ZoneOf offs d e n ∧ ∀ P Q : ZFrameSet → Prop,
      (∀ s c, P s → (s.feed offs c (Spec.tickIn offs n t)).2 = none → P (s.feed offs c (Spec.tickIn offs n t)).1) →
      (∀ s c, P s → (s.feed offs c (Spec.tickIn offs n t)).2 = none → Q (s.feed offs c (Spec.tickIn offs n t)).1) →
      (∀ o, d.objs[j]? = some o → P o.set) → ∀ o, (d.exec offs (.tick e t)).1.objs[j]? = some o → Q o.set := by
  obtain ⟨⟨ep, r⟩, ref, he, hm⟩ := hold
  obtain ⟨n, n2, n3⟩ := hc _ (List.mem_of_getElem? he)
  have n2 : ep.zone = tableZone offs n := n2
  refine ⟨n, ⟨_, he, n2⟩, ?_⟩
  intro P Q hP hQ h0
  have ht : ({ t with dt := t.dt.to ep.zone } : Tick) = Spec.tickIn offs n t := by rw [n2]; rfl
  have hx : d.exec offs (.tick e t) = d.tick offs e t := rfl
  rw [hx] at hn ⊢
  unfold ZDesk.tick at hn ⊢
  rw [he] at hn ⊢
  dsimp only at hn ⊢
  rw [mtick_lt n2 n3] at hn ⊢
  split_ifs at hn ⊢ with hlt
  rw [ht] at hn ⊢
  exact feedZObjs_fed P Q hP hQ j r _ h0 hn (.inl (List.mem_map_of_mem (f := Prod.snd) hm))

theorem mtick_frame {offs : ℕ → ℤ} (ho : Spec.Table offs) {d : ZDesk} (hd : Spec.NewMarkets offs d) {j : ℕ} {u : Unit'} {q : ℤ}
    (ha : Spec.Accepted u q) (hj : Spec.Timeframe d j u q) (l : List ZDCmd) {e : ℕ} {t : Tick} (hold : Spec.HoldsSet (d.run offs l) e j)
    (hn : ((d.run offs l).exec offs (.tick e t)).2 = none) :
    ∃ o i f a b n, ((d.run offs l).exec offs (.tick e t)).1.objs[j]? = some o ∧ o.set.fs.current = some (i, f) ∧
      Spec.Period f a b ∧ t.dt.utc < b ∧ f.last = Spec.tickIn offs n t ∧ Spec.ZoneOf offs (d.run offs l) e n ∧
      (Spec.NotBefore l t.dt.utc → a ≤ t.dt.utc) := by
  have hT := accepted_tiles ha
  have h := hd.run ho ha hj l
  generalize hr : d.run offs l = d' at h hold hn
  obtain ⟨n, n1, key⟩ := mtick_fed (offs := offs) (fun x hx => by obtain ⟨n, _, n2⟩ := h.clock x hx; exact ⟨n, n2⟩) hold hn
  have hp : Proper offs (Spec.tickIn offs n t).dt := rfl
  have hobj : ∃ o, (d'.exec offs (.tick e t)).1.objs[j]? = some o := by
    obtain ⟨o, h1⟩ := h.obj
    have hlt := (List.getElem?_eq_some_iff.mp h1).1
    have hx : d'.exec offs (.tick e t) = d'.tick offs e t := rfl
    rw [hx]
    unfold ZDesk.tick
    rcases d'.epics[e]? with _ | ⟨ep, r⟩
    · exact ⟨o, h1⟩
    · dsimp only
      split_ifs
      · exact ⟨o, h1⟩
      · exact ⟨_, List.getElem?_eq_getElem (by dsimp only; rw [feedZObjs_length]; exact hlt)⟩
  obtain ⟨o, h1⟩ := hobj
  obtain ⟨i, f, a, b, k1, k2, k3, k4, k5⟩ := key
    (fun s => ZInv offs u q s ∧ (Spec.NotBefore l t.dt.utc → ∀ b, s.now = some b → b.1 ≤ t.dt.utc))
    (fun s => ∃ i f a b, s.fs.current = some (i, f) ∧ Spec.Period f a b ∧ t.dt.utc < b ∧ f.last = Spec.tickIn offs n t ∧
      (Spec.NotBefore l t.dt.utc → a ≤ t.dt.utc))
    (by
      rintro s c ⟨s1, s2⟩ _
      obtain ⟨r1, r2, _⟩ := s1.feed_any ho.2 hT c hp
      exact ⟨r1, fun hb => r2 t.dt.utc (le_refl _) (s2 hb)⟩)
    (by
      rintro s c ⟨s1, s2⟩ hnone
      obtain ⟨r1, _, r3, _⟩ := s1.feed_any ho.2 hT c hp
      obtain ⟨a, b, e1, e2, e3⟩ := r3 hnone
      obtain ⟨i, f, c1, c2⟩ := zfeed_last hnone
      refine ⟨i, f, a, b, c1, ?_, e2, c2, fun hb => e3 (s2 hb)⟩
      rcases r1.current with ⟨_, h2, _⟩ | ⟨i', f', n', k, _, _, _, h4, h5, h6, h7⟩
      · rw [h2] at c1; cases c1
      · rw [h4] at c1
        cases c1
        rw [h5] at e1
        have e1 : (f.periodStart, f.periodEnd) = (a, some b) := Option.some.inj e1
        exact ⟨congrArg Prod.fst e1, congrArg Prod.snd e1⟩)
    (fun o hj => ⟨(h.inv o hj).1, fun hb => h.now _ hb o hj⟩) o h1
  exact ⟨o, i, f, a, b, n, h1, k1, k2, k3, k4, n1, k5⟩

/-- C103: a tick that raises nothing and is not before an earlier tick of any epic is, in every timed frame set of its epic, the last
tick of the current frame, and its instant lies in the period of that frame. -/
theorem C103_tick_in_frame (offs : ℕ → ℤ) (ho : Spec.Table offs) (d : ZDesk) (hd : Spec.NewMarkets offs d) (j : ℕ) (u : Unit') (q : ℤ)
    (ha : Spec.Accepted u q) (hj : Spec.Timeframe d j u q) (l : List ZDCmd) (e : ℕ) (t : Tick) (hold : Spec.HoldsSet (d.run offs l) e j)
    (hl : Spec.NotBefore l t.dt.utc) (hn : ((d.run offs l).exec offs (.tick e t)).2 = none) :
    ∃ o i f a b n, ((d.run offs l).exec offs (.tick e t)).1.objs[j]? = some o ∧ o.set.fs.current = some (i, f) ∧
      Spec.Period f a b ∧ a ≤ t.dt.utc ∧ t.dt.utc < b ∧ f.last = Spec.tickIn offs n t ∧ Spec.ZoneOf offs (d.run offs l) e n := by
  obtain ⟨o, i, f, a, b, n, h1, h2, h3, h4, h5, h6, h7⟩ := mtick_frame ho hd ha hj l hold hn
  exact ⟨o, i, f, a, b, n, h1, h2, h3, h7 hl, h4, h5, h6⟩

/-- C103: in any order: the tick is the last tick of the current frame, which ends after it (and may begin after it). -/
theorem C103_before_end (offs : ℕ → ℤ) (ho : Spec.Table offs) (d : ZDesk) (hd : Spec.NewMarkets offs d) (j : ℕ) (u : Unit') (q : ℤ)
    (ha : Spec.Accepted u q) (hj : Spec.Timeframe d j u q) (l : List ZDCmd) (e : ℕ) (t : Tick) (hold : Spec.HoldsSet (d.run offs l) e j)
    (hn : ((d.run offs l).exec offs (.tick e t)).2 = none) :
    ∃ o i f a b n, ((d.run offs l).exec offs (.tick e t)).1.objs[j]? = some o ∧ o.set.fs.current = some (i, f) ∧
      Spec.Period f a b ∧ t.dt.utc < b ∧ f.last = Spec.tickIn offs n t ∧ Spec.ZoneOf offs (d.run offs l) e n := by
  obtain ⟨o, i, f, a, b, n, h1, h2, h3, h4, h5, h6, _⟩ := mtick_frame ho hd ha hj l hold hn
  exact ⟨o, i, f, a, b, n, h1, h2, h3, h4, h5, h6⟩

/-- C103: in any order: a frame that a tick begins has bounds in the zone of the epic that got the tick: after a tick that raises nothing
either there is no new frame or the last one is in that zone. -/
theorem C103_zone (offs : ℕ → ℤ) (ho : Spec.Table offs) (d : ZDesk) (hd : Spec.NewMarkets offs d) (l : List ZDCmd) (e j : ℕ) (t : Tick)
    (hold : Spec.HoldsSet (d.run offs l) e j) (hn : ((d.run offs l).exec offs (.tick e t)).2 = none) (o o' : ZObj)
    (h1 : (d.run offs l).objs[j]? = some o) (h2 : ((d.run offs l).exec offs (.tick e t)).1.objs[j]? = some o') :
    ∃ n, Spec.ZoneOf offs (d.run offs l) e n ∧ (o'.set.zones = o.set.zones ∨ o'.set.zones.getLast? = some n) := by
  have hc := mclock_run (offs := offs) l (d := d) (by
    intro x hx
    obtain ⟨x1, n, x2⟩ := hd.epics x hx
    exact ⟨n, x2, by rw [x1]; exact epoch_proper ho⟩)
  obtain ⟨n, n1, key⟩ := mtick_fed hc hold hn
  refine ⟨n, n1, ?_⟩
  have step : ∀ (s : ZFrameSet) (c : Ctx), (s.zones = o.set.zones ∨ s.zones.getLast? = some n) →
      (s.feed offs c (Spec.tickIn offs n t)).2 = none →
      ((s.feed offs c (Spec.tickIn offs n t)).1.zones = o.set.zones ∨ (s.feed offs c (Spec.tickIn offs n t)).1.zones.getLast? = some n) := by
    intro s c hs hnone
    rcases (zfeed_zones s c (Spec.tickIn offs n t)).2 hnone with h | h
    · rw [h]; exact hs
    · exact .inr h
  refine key (fun s => s.zones = o.set.zones ∨ s.zones.getLast? = some n) (fun s => s.zones = o.set.zones ∨ s.zones.getLast? = some n)
    step step ?_ o' h2
  intro o'' ho''
  rw [h1] at ho''
  cases ho''
  exact .inl rfl

/-- Spec: the epic a call is made on. -/
def Spec.callee : ZDCmd → Option ℕ
  | .tick e _ => some e
  | .add e _ => some e
  | .indicator _ _ => none
  | .zone e _ => some e

/-- C103: an assignment of a timezone: an unknown name is refused and nothing has changed; with a known one the epic has that zone, its last
tick, market state, opening hours and frame sets are as before, and so are all frame sets. -/
theorem C103_assignment (offs : ℕ → ℤ) (d : ZDesk) (e : ℕ) (ep : Epic) (r : Dict ℕ) (he : d.epics[e]? = some (ep, r)) :
    d.exec offs (.zone e none) = (d, some .epic) ∧
    ∀ n, (d.exec offs (.zone e (some n))).2 = none ∧ (d.exec offs (.zone e (some n))).1.objs = d.objs ∧
      ∃ ep', (d.exec offs (.zone e (some n))).1.epics[e]? = some (ep', r) ∧ ep'.zone = tableZone offs n ∧
        ep'.lastTick = ep.lastTick ∧ ep'.marketOpen = ep.marketOpen ∧ ep'.openTime = ep.openTime ∧ ep'.closeTime = ep.closeTime ∧
        ep'.tradeDays = ep.tradeDays ∧ ep'.holidays = ep.holidays := by
  have hlt := (List.getElem?_eq_some_iff.mp he).1
  unfold ZDesk.exec ZDesk.setZone
  simp only [he]
  refine ⟨rfl, fun n => ⟨rfl, rfl, _, List.getElem?_set_self hlt, rfl, rfl, rfl, rfl, rfl, rfl, rfl⟩⟩

theorem feedZObjs_other {offs : ℕ → ℤ} {z : Zone} {epics : List (Epic × Dict ℕ)} {t : Tick} {j : ℕ} (r : Dict ℕ)
    (hr : ∀ p ∈ r, p.2 ≠ j) : ∀ objs : List ZObj, (feedZObjs offs z epics t objs r).1[j]? = objs[j]? := by
  induction r with
  | nil => intro objs; rfl
  | cons p r ih =>
    intro objs
    obtain ⟨k, i⟩ := p
    have hi : i ≠ j := hr (k, i) (List.mem_cons_self ..)
    unfold feedZObjs
    rcases objs[i]? with _ | o
    · rfl
    · dsimp only
      rcases o.set.feed offs (o.ctx z epics) t with ⟨s, _ | err⟩
      · dsimp only
        rw [ih (fun p hp => hr p (List.mem_cons_of_mem _ hp)), List.getElem?_set_ne hi]
      · exact List.getElem?_set_ne hi

/-- C103: a call on an epic leaves every other epic, with its timezone, last tick and dict of frame sets, as it was; a tick leaves every frame
set that the epic does not hold as it was. -/
theorem C103_local (offs : ℕ → ℤ) (d : ZDesk) (c : ZDCmd) :
    (∀ e, Spec.callee c ≠ some e → (d.exec offs c).1.epics[e]? = d.epics[e]?) ∧
    (∀ e t j, c = .tick e t → ¬ Spec.HoldsSet d e j → (d.exec offs c).1.objs[j]? = d.objs[j]?) := by
  refine ⟨fun e he => ?_, fun e t j hc hj => ?_⟩
  · rcases c with ⟨i, t⟩ | ⟨i, k⟩ | ⟨k, ind⟩ | ⟨i, n⟩
    · have hi : i ≠ e := fun h => he (by rw [h]; rfl)
      change (d.tick offs i t).1.epics[e]? = _
      unfold ZDesk.tick
      rcases d.epics[i]? with _ | ⟨ep, r⟩
      · rfl
      · dsimp only
        split_ifs
        · rfl
        · exact List.getElem?_set_ne hi
    · have hi : i ≠ e := fun h => he (by rw [h]; rfl)
      change (d.add i k).1.epics[e]? = _
      unfold ZDesk.add
      rcases d.epics[i]? with _ | ⟨ep, r⟩
      · rfl
      · rcases d.objs[k]? with _ | o
        · rfl
        · dsimp only
          rcases r.get? o.ref with _ | _
          · exact List.getElem?_set_ne hi
          · rfl
    · change (d.addIndicator k ind).1.epics[e]? = _
      unfold ZDesk.addIndicator
      rcases d.objs[k]? with _ | o <;> rfl
    · have hi : i ≠ e := fun h => he (by rw [h]; rfl)
      change (d.setZone offs i n).1.epics[e]? = _
      unfold ZDesk.setZone
      rcases d.epics[i]? with _ | ⟨ep, r⟩
      · rfl
      · dsimp only
        rcases ep.setZone offs n with err | ep'
        · rfl
        · exact List.getElem?_set_ne hi
  · subst hc
    change (d.tick offs e t).1.objs[j]? = _
    unfold ZDesk.tick
    rcases he : d.epics[e]? with _ | ⟨ep, r⟩
    · rfl
    · dsimp only
      split_ifs
      · rfl
      · exact feedZObjs_other r (fun p hp hpj => hj ⟨_, p.1, he, by rw [← hpj]; exact hp⟩) d.objs

/-- C103: in any order: every frame ever made begins at a boundary of the clock of its zone and ends at the next one; that zone is or was
the zone of an epic. -/
theorem C103_boundaries (offs : ℕ → ℤ) (ho : Spec.Table offs) (d : ZDesk) (hd : Spec.NewMarkets offs d) (j : ℕ) (u : Unit') (q : ℤ)
    (ha : Spec.Accepted u q) (hj : Spec.Timeframe d j u q) (l : List ZDCmd) (o : ZObj) (h1 : (d.run offs l).objs[j]? = some o)
    (i : ℕ) (hi : i < o.set.fs.heap.length) :
    ∃ a b n, Spec.MadeIn (d.run offs l) j i a b n ∧ Spec.Used offs d l n ∧ Spec.Aligned u q (a + offs n) ∧
      Spec.Aligned u q (b + offs n) ∧ a < b ∧ ∀ x, a < x → x < b → ¬ Spec.Aligned u q (x + offs n) := by
  have hT := accepted_tiles ha
  obtain ⟨h, hu⟩ := (hd.run ho ha hj l).inv o h1
  generalize d.run offs l = d' at h1
  have hz : i < o.set.zones.length := by rw [h.zones]; exact hi
  obtain ⟨k, k1, k2⟩ := h.period i (o.set.fs.heap[i]).bounds (o.set.zones[i])
    (by rw [List.getElem?_map, List.getElem?_eq_getElem hi]; rfl) (List.getElem?_eq_getElem hz)
  refine ⟨grid u q k - offs (o.set.zones[i]), grid u q (k + 1) - offs (o.set.zones[i]), o.set.zones[i],
    ⟨o, o.set.fs.heap[i], h1, List.getElem?_eq_getElem hi, ⟨k1, k2⟩, List.getElem?_eq_getElem hz⟩, hu _ (List.getElem_mem hz), ?_, ?_, ?_, ?_⟩
  · rw [sub_add_cancel, aligned_iff_grid hT]; exact ⟨k, rfl⟩
  · rw [sub_add_cancel, aligned_iff_grid hT]; exact ⟨k + 1, rfl⟩
  · have := grid_strictMono hT (show k < k + 1 by omega)
    omega
  · intro x h1 h2 hx
    obtain ⟨j, hj⟩ := (aligned_iff_grid hT _).mp hx
    have a1 : grid u q k < grid u q j := by omega
    have a2 : grid u q j < grid u q (k + 1) := by omega
    have b1 := (grid_strictMono hT).lt_iff_lt.mp a1
    have b2 := (grid_strictMono hT).lt_iff_lt.mp a2
    omega

/-- C103: in any order: a frame begins after the beginning of the frame before it and not after its end. -/
theorem C103_no_gap (offs : ℕ → ℤ) (ho : Spec.Table offs) (d : ZDesk) (hd : Spec.NewMarkets offs d) (j : ℕ) (u : Unit') (q : ℤ)
    (ha : Spec.Accepted u q) (hj : Spec.Timeframe d j u q) (l : List ZDCmd) (i : ℕ) (a b a' b' : ℤ) (n n' : ℕ)
    (h1 : Spec.MadeIn (d.run offs l) j i a b n) (h2 : Spec.MadeIn (d.run offs l) j (i + 1) a' b' n') : a < a' ∧ a' ≤ b := by
  obtain ⟨o, f, o1, f1, ⟨f2, f3⟩, _⟩ := h1
  obtain ⟨o', g, o2, g1, ⟨g2, g3⟩, _⟩ := h2
  rw [o1] at o2
  cases o2
  have h := ((hd.run ho ha hj l).inv o o1).1
  obtain ⟨r1, e, r2, r3⟩ := h.linked i f.bounds g.bounds (by rw [List.getElem?_map, f1]; rfl) (by rw [List.getElem?_map, g1]; rfl)
  have r1 : f.periodStart < g.periodStart := r1
  have r2 : f.periodEnd = some e := r2
  have r3 : g.periodStart ≤ e := r3
  rw [f3] at r2
  cases r2
  omega

/-- What ticks and indicators keep of a frame set holds of every object in a run. -/
theorem mkept_exec {offs : ℕ → ℤ} (P : ZFrameSet → Prop) (hf : ∀ s c (t : Tick), Proper offs t.dt → P s → P (s.feed offs c t).1)
    (hi : ∀ s ind, P s → P { s with fs := (s.fs.addIndicator ind).1 }) {d : ZDesk}
    (hc : ∀ x ∈ d.epics, ∃ n, x.1.zone = tableZone offs n ∧ Proper offs x.1.lastTick.dt) (h : ∀ o ∈ d.objs, P o.set) (c : ZDCmd) :
    ∀ o ∈ (d.exec offs c).1.objs, P o.set := by
  rcases c with ⟨e, t⟩ | ⟨e, i⟩ | ⟨i, ind⟩ | ⟨e, k⟩
  · change ∀ o ∈ (d.tick offs e t).1.objs, P o.set
    unfold ZDesk.tick
    rcases he : d.epics[e]? with _ | ⟨ep, r⟩
    · exact h
    · obtain ⟨n, n2, n3⟩ := hc _ (List.mem_of_getElem? he)
      dsimp only
      split_ifs
      · exact h
      · intro o hm
        obtain ⟨j, hj⟩ := List.getElem?_of_mem hm
        refine feedZObjs_kept P (fun s c hs => hf s c _ ?_ hs) j r d.objs (fun o ho => h o (List.mem_of_getElem? ho)) o hj
        have e1 : ep.zone = tableZone offs n := n2
        dsimp only
        rw [e1, to_proper]; rfl
  · change ∀ o ∈ (d.add e i).1.objs, P o.set
    unfold ZDesk.add
    rcases he : d.epics[e]? with _ | ⟨ep, r⟩
    · exact h
    · rcases hi : d.objs[i]? with _ | o
      · exact h
      · dsimp only
        rcases r.get? o.ref with _ | _
        · intro x hx
          rcases List.mem_or_eq_of_mem_set hx with hx | rfl
          · exact h x hx
          · exact h o (List.mem_of_getElem? hi)
        · exact h
  · change ∀ o ∈ (d.addIndicator i ind).1.objs, P o.set
    unfold ZDesk.addIndicator
    rcases hj : d.objs[i]? with _ | o
    · exact h
    · intro x hx
      rcases List.mem_or_eq_of_mem_set hx with hx | rfl
      · exact h x hx
      · exact hi _ ind (h o (List.mem_of_getElem? hj))
  · change ∀ o ∈ (d.setZone offs e k).1.objs, P o.set
    unfold ZDesk.setZone
    rcases he : d.epics[e]? with _ | ⟨ep, r⟩
    · exact h
    · rcases k with _ | n <;> exact h

theorem mkept_run {offs : ℕ → ℤ} (P : ZFrameSet → Prop) (hf : ∀ s c (t : Tick), Proper offs t.dt → P s → P (s.feed offs c t).1)
    (hi : ∀ s ind, P s → P { s with fs := (s.fs.addIndicator ind).1 }) (l : List ZDCmd) : ∀ {d : ZDesk},
    (∀ x ∈ d.epics, ∃ n, x.1.zone = tableZone offs n ∧ Proper offs x.1.lastTick.dt) → (∀ o ∈ d.objs, P o.set) →
    ∀ o ∈ (d.run offs l).objs, P o.set := by
  induction l with
  | nil => intro d _ h; exact h
  | cons c l ih => intro d hc h; exact ih (mclock_exec hc c) (mkept_exec P hf hi hc h c)

/-- A frame set of ticks, or a timed one with its invariant. -/
def SoundSet (offs : ℕ → ℤ) (s : ZFrameSet) : Prop := s.fs.unit = .tick ∨ ∃ u q, Tiles u q ∧ ZInv offs u q s

theorem SoundSet.feed {offs : ℕ → ℤ} (ho : Spec.Table offs) {s : ZFrameSet} (h : SoundSet offs s) (c : Ctx) {t : Tick} (ht : Proper offs t.dt) :
    SoundSet offs (s.feed offs c t).1 ∧ (s.feed offs c t).2 ≠ some .diverge := by
  rcases h with h | ⟨u, q, hT, h⟩
  · unfold ZFrameSet.feed
    rw [if_pos h]
    split_ifs
    · exact ⟨.inl ((create_unit s c t t.dt none).1.trans h), create_nd _ _ _ _ _⟩
    · exact ⟨.inl ((feedLast_bounds s.fs c t).2.2.1.trans h), zaddToLast_nd _ _ _⟩
  · obtain ⟨r1, _, _, r4⟩ := h.feed_any ho.2 hT c ht
    exact ⟨.inr ⟨u, q, hT, r1⟩, r4⟩

/-- C103: in any order: no call makes a loop of the library run forever. -/
theorem C103_terminates (offs : ℕ → ℤ) (ho : Spec.Table offs) (d : ZDesk) (hd : Spec.NewMarkets offs d)
    (ha : ∀ o ∈ d.objs, o.set.fs.unit = .tick ∨ Spec.Accepted o.set.fs.unit o.set.fs.qty) (l : List ZDCmd) (e : ℕ) (t : Tick) :
    ((d.run offs l).exec offs (.tick e t)).2 ≠ some .diverge := by
  have h0 : ∀ x ∈ d.epics, ∃ n, x.1.zone = tableZone offs n ∧ Proper offs x.1.lastTick.dt := by
    intro x hx
    obtain ⟨x1, n, x2⟩ := hd.epics x hx
    exact ⟨n, x2, by rw [x1]; exact epoch_proper ho⟩
  have hc := mclock_run (offs := offs) l h0
  have hs := mkept_run (offs := offs) (SoundSet offs) (fun s c t ht h => (h.feed ho c ht).1)
    (by
      intro s ind h
      have hh : (s.fs.addIndicator ind).1.heap = s.fs.heap ∧ (s.fs.addIndicator ind).1.frames = s.fs.frames ∧
          (s.fs.addIndicator ind).1.unit = s.fs.unit ∧ (s.fs.addIndicator ind).1.qty = s.fs.qty := by
        unfold FrameSet.addIndicator
        rcases ind.kind <;> exact ⟨rfl, rfl, rfl, rfl⟩
      rcases h with h | ⟨u, q, hT, h⟩
      · exact .inl (hh.2.2.1.trans h)
      · refine .inr ⟨u, q, hT, hh.2.2.1.trans h.unit, hh.2.2.2.trans h.qty, ?_, ?_, ?_, ?_⟩
        · dsimp only; rw [hh.1]; exact h.zones
        · dsimp only; rw [hh.1, hh.2.1]; exact h.last
        · dsimp only; rw [hh.1]; exact h.period
        · dsimp only; rw [hh.1]; exact h.linked) l h0
    (by
      intro o hm
      rcases ha o hm with h | h
      · exact .inl h
      · obtain ⟨j, hj⟩ := List.getElem?_of_mem hm
        exact .inr ⟨_, _, accepted_tiles h, ((hd.minv ho ⟨o, hj, rfl, rfl⟩ []).inv o hj).1⟩)
  generalize d.run offs l = d' at hc hs
  change (d'.tick offs e t).2 ≠ some .diverge
  unfold ZDesk.tick
  rcases he : d'.epics[e]? with _ | ⟨ep, r⟩
  · exact fun h => by cases h
  · obtain ⟨n, n2, n3⟩ := hc _ (List.mem_of_getElem? he)
    dsimp only
    split_ifs
    · exact fun h => by cases h
    · have hp : Proper offs (t.dt.to ep.zone) := by
        have e1 : ep.zone = tableZone offs n := n2
        rw [e1, to_proper]; rfl
      exact feedZObjs_nd (SoundSet offs) (fun s c h => (h.feed ho c hp).1) (fun s c h => (h.feed ho c hp).2) r d'.objs hs

/-! ## One zone: frame sets shared by epics of the same timezone -/

/-- Spec: the desk of epics of one zone (`SharedSet`), with wall clocks of that zone as bounds. -/
def Spec.asDesk (offs : ℕ → ℤ) (m : ℕ) (d : ZDesk) : Desk :=
  ⟨tableZone offs m, d.epics, d.objs.map (fun o => ⟨o.ref, Spec.walls offs m o.set, o.owner⟩)⟩

/-- Spec: the same call there. -/
def Spec.asDCmd : ZDCmd → Option DCmd
  | .tick e t => some (.tick e t)
  | .add e j => some (.add e j)
  | .indicator j ind => some (.addIndicator j ind)
  | .zone _ _ => none

theorem asDesk_get (offs : ℕ → ℤ) (m : ℕ) (objs : List ZObj) (j : ℕ) :
    (objs.map (fun o => (⟨o.ref, Spec.walls offs m o.set, o.owner⟩ : SetObj)))[j]? =
      (objs[j]?).map (fun o => ⟨o.ref, Spec.walls offs m o.set, o.owner⟩) := List.getElem?_map

theorem asDesk_feed {offs : ℕ → ℤ} {m : ℕ} {epics : List (Epic × Dict ℕ)} {t : Tick} (ht : t.dt = atZone offs m t.dt.utc) (r : Dict ℕ) :
    ∀ objs : List ZObj, (∀ o ∈ objs, OneZone m o.set) →
    feedObjs (tableZone offs m) epics t (objs.map (fun o => (⟨o.ref, Spec.walls offs m o.set, o.owner⟩ : SetObj))) r =
      ((feedZObjs offs (tableZone offs m) epics t objs r).1.map (fun o => (⟨o.ref, Spec.walls offs m o.set, o.owner⟩ : SetObj)),
        (feedZObjs offs (tableZone offs m) epics t objs r).2) ∧
    ∀ o ∈ (feedZObjs offs (tableZone offs m) epics t objs r).1, OneZone m o.set := by
  induction r with
  | nil => intro objs h; exact ⟨rfl, h⟩
  | cons p r ih =>
    intro objs h
    obtain ⟨k, j⟩ := p
    unfold feedObjs feedZObjs
    rw [asDesk_get]
    rcases hj : objs[j]? with _ | o
    · exact ⟨rfl, h⟩
    · simp only [Option.map_some]
      have hctx : SetObj.ctx ⟨o.ref, Spec.walls offs m o.set, o.owner⟩ (tableZone offs m) epics = o.ctx (tableZone offs m) epics := rfl
      obtain ⟨w1, w2⟩ := walls_feed (offs := offs) ((o.owner.bind (fun e => epics[e]?)).map
        (fun x => (x.1.marketOpen, ordOf x.1.lastTick.dt.wall))) (h o (List.mem_of_getElem? hj)) ht
      have w1 : (Spec.walls offs m o.set).feed (o.ctx (tableZone offs m) epics) t =
        (Spec.walls offs m (o.set.feed offs (o.ctx (tableZone offs m) epics) t).1,
          (o.set.feed offs (o.ctx (tableZone offs m) epics) t).2) := w1
      have w2 : OneZone m (o.set.feed offs (o.ctx (tableZone offs m) epics) t).1 := w2
      rw [hctx, w1]
      rcases hf : o.set.feed offs (o.ctx (tableZone offs m) epics) t with ⟨s, _ | err⟩
      · rw [hf] at w2
        dsimp only
        rw [← List.map_set (f := fun o : ZObj => (⟨o.ref, Spec.walls offs m o.set, o.owner⟩ : SetObj)) (a := { o with set := s })]
        apply ih
        intro x hx
        rcases List.mem_or_eq_of_mem_set hx with hx | rfl
        · exact h x hx
        · exact w2
      · rw [hf] at w2
        dsimp only
        rw [← List.map_set (f := fun o : ZObj => (⟨o.ref, Spec.walls offs m o.set, o.owner⟩ : SetObj)) (a := { o with set := s })]
        refine ⟨rfl, ?_⟩
        intro x hx
        rcases List.mem_or_eq_of_mem_set hx with hx | rfl
        · exact h x hx
        · exact w2

/-- Every epic and every frame is in zone `m`. -/
structure AllIn (offs : ℕ → ℤ) (m : ℕ) (d : ZDesk) : Prop where
  epics : ∀ x ∈ d.epics, x.1.zone = tableZone offs m
  objs : ∀ o ∈ d.objs, OneZone m o.set

theorem asDesk_step {offs : ℕ → ℤ} {m : ℕ} {d : ZDesk} (h : AllIn offs m d) (c : ZDCmd) (k : DCmd) (hk : Spec.asDCmd c = some k) :
    (Spec.asDesk offs m d).exec k = (Spec.asDesk offs m (d.exec offs c).1, (d.exec offs c).2) ∧ AllIn offs m (d.exec offs c).1 := by
  rcases c with ⟨e, t⟩ | ⟨e, i⟩ | ⟨i, ind⟩ | ⟨e, n⟩
  · cases hk
    have hx : d.exec offs (.tick e t) = d.tick offs e t := rfl
    have hy : (Spec.asDesk offs m d).exec (.tick e t) = (Spec.asDesk offs m d).tick e t := rfl
    rw [hx, hy]
    unfold ZDesk.tick Desk.tick
    have he' : (Spec.asDesk offs m d).epics = d.epics := rfl
    rw [he']
    rcases he : d.epics[e]? with _ | ⟨ep, r⟩
    · exact ⟨rfl, h⟩
    · have hz : ep.zone = tableZone offs m := h.epics _ (List.mem_of_getElem? he)
      have hz' : (Spec.asDesk offs m d).zone = ep.zone := by rw [hz]; rfl
      dsimp only
      rw [hz']
      split_ifs
      · exact ⟨rfl, h⟩
      · obtain ⟨f1, f2⟩ := asDesk_feed (offs := offs) (m := m) (epics := d.epics.set e ({ ep with
            lastTick := { t with dt := t.dt.to ep.zone }
            marketOpen := ({ ep with lastTick := { t with dt := t.dt.to ep.zone } } : Epic).isMarketOpen }, r))
          (t := { t with dt := t.dt.to ep.zone }) (by rw [hz]; rfl) r d.objs h.objs
        rw [← hz] at f1 f2
        refine ⟨?_, ?_, f2⟩
        · have ho : (Spec.asDesk offs m d).objs = d.objs.map (fun o => ⟨o.ref, Spec.walls offs m o.set, o.owner⟩) := rfl
          rw [ho, f1]
          unfold Spec.asDesk
          dsimp only
          rw [← hz]
        · intro x hx
          rcases List.mem_or_eq_of_mem_set hx with hx | rfl
          · exact h.epics x hx
          · exact hz
  · cases hk
    have hx : d.exec offs (.add e i) = d.add e i := rfl
    have hy : (Spec.asDesk offs m d).exec (.add e i) = (Spec.asDesk offs m d).add e i := rfl
    rw [hx, hy]
    unfold ZDesk.add Desk.add
    have he' : (Spec.asDesk offs m d).epics = d.epics := rfl
    have ho' : (Spec.asDesk offs m d).objs = d.objs.map (fun o => ⟨o.ref, Spec.walls offs m o.set, o.owner⟩) := rfl
    rw [he', ho', asDesk_get]
    rcases he : d.epics[e]? with _ | ⟨ep, r⟩
    · exact ⟨rfl, h⟩
    · rcases hi : d.objs[i]? with _ | o
      · exact ⟨rfl, h⟩
      · simp only [Option.map_some]
        rcases r.get? o.ref with _ | _
        · refine ⟨?_, ?_, ?_⟩
          · unfold Spec.asDesk
            dsimp only
            rw [List.map_set]
          · intro x hx
            rcases List.mem_or_eq_of_mem_set hx with hx | rfl
            · exact h.epics x hx
            · exact h.epics (ep, r) (List.mem_of_getElem? he)
          · intro x hx
            rcases List.mem_or_eq_of_mem_set hx with hx | rfl
            · exact h.objs x hx
            · exact h.objs o (List.mem_of_getElem? hi)
        · exact ⟨rfl, h⟩
  · cases hk
    have hx : d.exec offs (.indicator i ind) = d.addIndicator i ind := rfl
    have hy : (Spec.asDesk offs m d).exec (.addIndicator i ind) = (Spec.asDesk offs m d).addIndicator i ind := rfl
    rw [hx, hy]
    unfold ZDesk.addIndicator Desk.addIndicator
    have ho' : (Spec.asDesk offs m d).objs = d.objs.map (fun o => ⟨o.ref, Spec.walls offs m o.set, o.owner⟩) := rfl
    rw [ho', asDesk_get]
    rcases hi : d.objs[i]? with _ | o
    · exact ⟨rfl, h⟩
    · simp only [Option.map_some]
      have hadd : (Spec.walls offs m o.set).addIndicator ind =
          (Spec.walls offs m { o.set with fs := (o.set.fs.addIndicator ind).1 }, (o.set.fs.addIndicator ind).2) := by
        unfold FrameSet.addIndicator Spec.walls Spec.redateSet
        dsimp only
        rcases ind.kind <;> rfl
      refine ⟨?_, h.epics, ?_⟩
      · rw [hadd]
        unfold Spec.asDesk
        dsimp only
        rw [List.map_set]
      · intro x hx
        rcases List.mem_or_eq_of_mem_set hx with hx | rfl
        · exact h.objs x hx
        · have hh : (o.set.fs.addIndicator ind).1.heap = o.set.fs.heap := by
            unfold FrameSet.addIndicator
            rcases ind.kind <;> rfl
          unfold OneZone
          dsimp only
          rw [hh]
          exact h.objs o (List.mem_of_getElem? hi)
  · cases hk

/-- C103: if all epics are in one zone and none is assigned another one, nothing is new: the desk is the one of C86, with wall clocks of
the zone as bounds. -/
theorem C103_one_zone (offs : ℕ → ℤ) (m : ℕ) (d : ZDesk) (hd : Spec.NewMarkets offs d) (hm : ∀ x ∈ d.epics, x.1.zone = tableZone offs m)
    (l : List ZDCmd) (hl : ∀ e n, ZDCmd.zone e n ∉ l) :
    (Spec.asDesk offs m d).run (l.filterMap Spec.asDCmd) = Spec.asDesk offs m (d.run offs l) := by
  have h : AllIn offs m d := by
    refine ⟨hm, fun o ho => ?_⟩
    obtain ⟨_, h2, _, h4⟩ := hd.objs o ho
    unfold OneZone
    rw [h4, h2]; rfl
  clear hd hm
  induction l generalizing d with
  | nil => rfl
  | cons c l ih =>
    have hl' : ∀ e n, ZDCmd.zone e n ∉ l := fun e n hm => hl e n (List.mem_cons_of_mem _ hm)
    have hk : ∃ k, Spec.asDCmd c = some k := by
      rcases c with ⟨e, t⟩ | ⟨e, i⟩ | ⟨i, ind⟩ | ⟨e, n⟩
      · exact ⟨_, rfl⟩
      · exact ⟨_, rfl⟩
      · exact ⟨_, rfl⟩
      · exact absurd List.mem_cons_self (hl e n)
    obtain ⟨k, hk⟩ := hk
    obtain ⟨h1, h2⟩ := asDesk_step h c k hk
    rw [List.filterMap_cons_some hk]
    change ((Spec.asDesk offs m d).exec k).1.run (l.filterMap Spec.asDCmd) = Spec.asDesk offs m ((d.exec offs c).1.run offs l)
    rw [h1]
    exact ih _ hl' h2

/-! ## Zones with the same boundaries -/

theorem zfeed_free {offs : ℕ → ℤ} {z : ZFrameSet} (hz : FreedSet z.fs) (hu : z.fs.unit ≠ .tick) (c c' : Ctx) (tick : Tick) :
    z.feed offs c tick = z.feed offs c' tick ∧ FreedSet (z.feed offs c tick).1.fs := by
  unfold ZFrameSet.feed
  rw [if_neg hu, if_neg hu]
  rcases z.overTimed offs tick with e | over
  · exact ⟨rfl, hz⟩
  · dsimp only
    split_ifs
    · unfold ZFrameSet.createTimed
      rcases zoneStart offs z.fs.unit z.fs.qty tick.dt with e | ps
      · exact ⟨rfl, hz⟩
      · dsimp only
        obtain ⟨f1, f2⟩ := fill_freed (offs := offs) c c' ps (fillFuel z.fs ps.utc) hz
        rw [← f1]
        rcases hx : ZFrameSet.fill offs c ps (fillFuel z.fs ps.utc) z with ⟨z', _ | e⟩
        · rw [hx] at f2
          exact create_freed f2 c c' tick _ _
        · rw [hx] at f2
          exact ⟨rfl, f2⟩
    · obtain ⟨h1, h2⟩ := feedLast_freed hz c c' tick
      unfold ZFrameSet.addToLast
      rw [h1] at h2 ⊢
      exact ⟨rfl, h2⟩

/-- A frame set to which zones do not matter. -/
structure Level (offs : ℕ → ℤ) (m : ℕ) (s : ZFrameSet) : Prop where
  unit : s.fs.unit ≠ .tick
  tiles : Tiles s.fs.unit s.fs.qty
  same : ∀ n, Spec.SameBoundaries s.fs.unit s.fs.qty (offs n) (offs m)
  freed : FreedSet s.fs

theorem Level.feed {offs : ℕ → ℤ} {m : ℕ} {s : ZFrameSet} (h : Level offs m s) (c c' : Ctx) {t : Tick} (ht : Proper offs t.dt) :
    (Spec.inZone offs m s).feed offs c' (Spec.tickIn offs m t) =
      (Spec.inZone offs m (s.feed offs c t).1, (s.feed offs c t).2) ∧ Level offs m (s.feed offs c t).1 := by
  obtain ⟨f1, f2⟩ := zfeed_free (offs := offs) h.freed h.unit c ⟨tableZone offs m, some (true, ordOf t.dt.wall)⟩ t
  obtain ⟨g1, g2, g3⟩ := inZone_feed (m := m) (fun _ => h.tiles) h.same s rfl rfl ht true (tableZone offs m) rfl
  have hfr : FreedSet (Spec.inZone offs m s).fs := by
    refine ⟨h.freed.inds, ?_⟩
    intro f hf
    obtain ⟨g, hg, rfl⟩ := List.mem_map.mp hf
    intro p hp v hv
    obtain ⟨p0, hp0, rfl⟩ := List.mem_map.mp hp
    obtain ⟨v0, hv0, rfl⟩ := Option.map_eq_some_iff.mp hv
    exact h.freed.heap g hg p0 hp0 v0 hv0
  obtain ⟨k1, _⟩ := zfeed_free (offs := offs) hfr h.unit c' ⟨tableZone offs m, some (true, ordOf (atZone offs m t.dt.utc).wall)⟩
    (Spec.tickIn offs m t)
  have et : Spec.redateTick (fun d => atZone offs m d.utc) t = Spec.tickIn offs m t := rfl
  rw [et] at g1
  rw [k1, g1, f1]
  refine ⟨rfl, ?_⟩
  rw [f1] at f2
  exact ⟨by rw [g2]; exact h.unit, by rw [g2, g3]; exact h.tiles, by rw [g2, g3]; exact h.same, f2⟩

/-- Spec: the same epics in zone `m` and the same frame sets. -/
def Spec.inOne (offs : ℕ → ℤ) (m : ℕ) (d : ZDesk) : ZDesk :=
  { d with epics := d.epics.map (fun x => ({ x.1 with zone := tableZone offs m }, x.2)) }

/-- Spec: the program without its assignments. -/
def Spec.unzoned (l : List ZDCmd) : List ZDCmd := l.filter (fun c => match c with | .zone _ _ => false | _ => true)

/-- An epic in any zone and the same one in zone `m`. -/
structure TwinEpic (offs : ℕ → ℤ) (m : ℕ) (x x' : Epic × Dict ℕ) : Prop where
  zone : ∃ n, x.1.zone = tableZone offs n
  last : Proper offs x.1.lastTick.dt
  zone' : x'.1.zone = tableZone offs m
  last' : Proper offs x'.1.lastTick.dt
  utc : x'.1.lastTick.dt.utc = x.1.lastTick.dt.utc
  dict : x'.2 = x.2

/-- Two desks, the second one in zone `m` all the time. -/
structure TwinDesk (offs : ℕ → ℤ) (m : ℕ) (d d' : ZDesk) : Prop where
  epics : List.Forall₂ (TwinEpic offs m) d.epics d'.epics
  level : ∀ o ∈ d.objs, Level offs m o.set
  objs : d'.objs = d.objs.map (fun o => { o with set := Spec.inZone offs m o.set })

theorem twin_get {offs : ℕ → ℤ} {m : ℕ} {l l' : List (Epic × Dict ℕ)} (h : List.Forall₂ (TwinEpic offs m) l l') (e : ℕ) :
    (l[e]? = none ∧ l'[e]? = none) ∨ ∃ x x', l[e]? = some x ∧ l'[e]? = some x' ∧ TwinEpic offs m x x' := by
  induction h generalizing e with
  | nil => left; simp
  | cons hx _ ih =>
    cases e with
    | zero => right; exact ⟨_, _, rfl, rfl, hx⟩
    | succ e => simpa using ih e

theorem twin_set {offs : ℕ → ℤ} {m : ℕ} {l l' : List (Epic × Dict ℕ)} (h : List.Forall₂ (TwinEpic offs m) l l') (e : ℕ)
    {x x' : Epic × Dict ℕ} (hx : TwinEpic offs m x x') : List.Forall₂ (TwinEpic offs m) (l.set e x) (l'.set e x') := by
  induction h generalizing e with
  | nil => exact .nil
  | cons hy hl ih =>
    cases e with
    | zero => exact .cons hx hl
    | succ e => exact .cons hy (ih e)

theorem twin_feed {offs : ℕ → ℤ} {m : ℕ} {z z' : Zone} {epics epics' : List (Epic × Dict ℕ)} {t : Tick} (ht : Proper offs t.dt)
    (r : Dict ℕ) : ∀ objs : List ZObj, (∀ o ∈ objs, Level offs m o.set) →
    feedZObjs offs z' epics' (Spec.tickIn offs m t) (objs.map (fun o => { o with set := Spec.inZone offs m o.set })) r =
      ((feedZObjs offs z epics t objs r).1.map (fun o => { o with set := Spec.inZone offs m o.set }),
        (feedZObjs offs z epics t objs r).2) ∧
    ∀ o ∈ (feedZObjs offs z epics t objs r).1, Level offs m o.set := by
  induction r with
  | nil => intro objs h; exact ⟨rfl, h⟩
  | cons p r ih =>
    intro objs h
    obtain ⟨k, j⟩ := p
    unfold feedZObjs
    rw [List.getElem?_map]
    rcases hj : objs[j]? with _ | o
    · exact ⟨rfl, h⟩
    · simp only [Option.map_some]
      obtain ⟨w1, w2⟩ := (h o (List.mem_of_getElem? hj)).feed (o.ctx z epics)
        (ZObj.ctx { o with set := Spec.inZone offs m o.set } z' epics') ht
      rw [w1]
      rcases hf : o.set.feed offs (o.ctx z epics) t with ⟨s, _ | err⟩
      · rw [hf] at w2
        dsimp only
        rw [← List.map_set (f := fun o : ZObj => ({ o with set := Spec.inZone offs m o.set } : ZObj)) (a := { o with set := s })]
        apply ih
        intro x hx
        rcases List.mem_or_eq_of_mem_set hx with hx | rfl
        · exact h x hx
        · exact w2
      · rw [hf] at w2
        dsimp only
        rw [← List.map_set (f := fun o : ZObj => ({ o with set := Spec.inZone offs m o.set } : ZObj)) (a := { o with set := s })]
        refine ⟨rfl, ?_⟩
        intro x hx
        rcases List.mem_or_eq_of_mem_set hx with hx | rfl
        · exact h x hx
        · exact w2

theorem TwinDesk.exec {offs : ℕ → ℤ} {m : ℕ} {d d' : ZDesk} (h : TwinDesk offs m d d') (c : ZDCmd) (hc : ∀ e n, c ≠ .zone e n)
    (hi : ∀ j ind, c = .indicator j ind → ind.marketOpenOnly = false) :
    TwinDesk offs m (d.exec offs c).1 (d'.exec offs c).1 ∧ (d'.exec offs c).2 = (d.exec offs c).2 := by
  rcases c with ⟨e, t⟩ | ⟨e, i⟩ | ⟨i, ind⟩ | ⟨e, n⟩
  · have hx : ∀ d : ZDesk, d.exec offs (.tick e t) = d.tick offs e t := fun _ => rfl
    rw [hx, hx]
    unfold ZDesk.tick
    rcases twin_get h.epics e with ⟨h1, h2⟩ | ⟨⟨ep, r⟩, ⟨ep', r'⟩, h1, h2, hh⟩
    · rw [h1, h2]
      exact ⟨h, rfl⟩
    · rw [h1, h2]
      obtain ⟨n, hn⟩ := hh.zone
      have hn : ep.zone = tableZone offs n := hn
      have hm : ep'.zone = tableZone offs m := hh.zone'
      obtain rfl : r' = r := hh.dict
      have hutc : ep'.lastTick.dt.utc = ep.lastTick.dt.utc := hh.utc
      dsimp only
      rw [mtick_lt hn hh.last, mtick_lt hm hh.last', hutc]
      split_ifs
      · exact ⟨h, rfl⟩
      · have hp : Proper offs (t.dt.to ep.zone) := by rw [hn, to_proper]; rfl
        have hp' : Proper offs (t.dt.to ep'.zone) := by rw [hm, to_proper]; rfl
        have et : ({ t with dt := t.dt.to ep'.zone } : Tick) = Spec.tickIn offs m { t with dt := t.dt.to ep.zone } := by
          rw [hm]; rfl
        obtain ⟨f1, f2⟩ := twin_feed (offs := offs) (m := m) (z := ep.zone) (z' := ep'.zone)
          (epics := d.epics.set e ({ ep with
            lastTick := { t with dt := t.dt.to ep.zone }
            marketOpen := ({ ep with lastTick := { t with dt := t.dt.to ep.zone } } : Epic).isMarketOpen }, r'))
          (epics' := d'.epics.set e ({ ep' with
            lastTick := { t with dt := t.dt.to ep'.zone }
            marketOpen := ({ ep' with lastTick := { t with dt := t.dt.to ep'.zone } } : Epic).isMarketOpen }, r'))
          (t := { t with dt := t.dt.to ep.zone }) hp r' d.objs h.level
        rw [← et, ← h.objs] at f1
        dsimp only at f1 ⊢
        rw [f1]
        exact ⟨⟨twin_set h.epics e ⟨⟨n, hn⟩, hp, hm, hp', rfl, rfl⟩, f2, rfl⟩, rfl⟩
  · have hx : ∀ d : ZDesk, d.exec offs (.add e i) = d.add e i := fun _ => rfl
    rw [hx, hx]
    unfold ZDesk.add
    rw [h.objs, List.getElem?_map]
    rcases twin_get h.epics e with ⟨h1, h2⟩ | ⟨⟨ep, r⟩, ⟨ep', r'⟩, h1, h2, hh⟩
    · rw [h1, h2]
      exact ⟨h, rfl⟩
    · rw [h1, h2]
      obtain rfl : r' = r := hh.dict
      rcases hi : d.objs[i]? with _ | o
      · exact ⟨h, rfl⟩
      · simp only [Option.map_some]
        rcases r'.get? o.ref with _ | _
        · refine ⟨⟨twin_set h.epics e ⟨hh.zone, hh.last, hh.zone', hh.last', hh.utc, rfl⟩, ?_, ?_⟩, rfl⟩
          · intro x hx
            rcases List.mem_or_eq_of_mem_set hx with hx | rfl
            · exact h.level x hx
            · exact h.level o (List.mem_of_getElem? hi)
          · dsimp only
            rw [List.map_set]
        · exact ⟨h, rfl⟩
  · have hx : ∀ d : ZDesk, d.exec offs (.indicator i ind) = d.addIndicator i ind := fun _ => rfl
    rw [hx, hx]
    unfold ZDesk.addIndicator
    rw [h.objs, List.getElem?_map]
    rcases hj : d.objs[i]? with _ | o
    · exact ⟨h, rfl⟩
    · simp only [Option.map_some]
      have hadd : (Spec.inZone offs m o.set).fs.addIndicator ind =
          ((Spec.inZone offs m { o.set with fs := (o.set.fs.addIndicator ind).1 }).fs, (o.set.fs.addIndicator ind).2) := by
        unfold FrameSet.addIndicator Spec.inZone Spec.redateSet
        dsimp only
        rcases ind.kind <;> rfl
      have hu : (o.set.fs.addIndicator ind).1.unit = o.set.fs.unit ∧ (o.set.fs.addIndicator ind).1.qty = o.set.fs.qty := by
        unfold FrameSet.addIndicator
        rcases ind.kind <;> exact ⟨rfl, rfl⟩
      have ho := h.level o (List.mem_of_getElem? hj)
      rw [hadd]
      refine ⟨⟨h.epics, ?_, ?_⟩, rfl⟩
      · intro x hx
        rcases List.mem_or_eq_of_mem_set hx with hx | rfl
        · exact h.level x hx
        · refine ⟨?_, ?_, ?_, addIndicator_freed ho.freed (hi i ind rfl)⟩
          · dsimp only; rw [hu.1]; exact ho.unit
          · dsimp only; rw [hu.1, hu.2]; exact ho.tiles
          · dsimp only; rw [hu.1, hu.2]; exact ho.same
      · dsimp only
        rw [List.map_set]
        rfl
  · exact absurd rfl (hc e n)

theorem TwinDesk.zone {offs : ℕ → ℤ} {m : ℕ} {d d' : ZDesk} (h : TwinDesk offs m d d') (e : ℕ) (n : Option ℕ) :
    TwinDesk offs m (d.exec offs (.zone e n)).1 d' := by
  have hx : d.exec offs (.zone e n) = d.setZone offs e n := rfl
  rw [hx]
  unfold ZDesk.setZone
  rcases twin_get h.epics e with ⟨h1, h2⟩ | ⟨⟨ep, r⟩, ⟨ep', r'⟩, h1, h2, hh⟩
  · rw [h1]
    exact h
  · rw [h1]
    rcases n with _ | n
    · exact h
    · refine ⟨?_, h.level, h.objs⟩
      have e1 : d'.epics = d'.epics.set e (ep', r') := by
        apply List.ext_getElem?
        intro i
        rw [List.getElem?_set]
        split_ifs with h3 h4
        · rw [← h3]; exact h2
        · rw [← h3, List.getElem?_eq_none (by omega)]
        · rfl
      rw [e1]
      exact twin_set h.epics e ⟨⟨n, rfl⟩, hh.last, hh.zone', hh.last', hh.utc, hh.dict⟩

/-- C103 (partial: frames of seconds, minutes and hours, and zones whose offsets differ by whole periods; indicators not limited to
market hours): zones do not matter: the frame sets are those of the run in which all epics are in zone `m` all the time, with the same
instants, ticks, prices and indicator values. -/
theorem C103_unaffected_partial (offs : ℕ → ℤ) (ho : Spec.Table offs) (m : ℕ) (d : ZDesk) (hd : Spec.NewMarkets offs d)
    (ha : ∀ o ∈ d.objs, o.set.fs.unit ≠ .tick ∧ Spec.Accepted o.set.fs.unit o.set.fs.qty ∧
      (∀ n, Spec.SameBoundaries o.set.fs.unit o.set.fs.qty (offs n) (offs m)) ∧
      ∀ p ∈ o.set.fs.indicators, p.2.marketOpenOnly = false)
    (l : List ZDCmd) (hl : ∀ j ind, ZDCmd.indicator j ind ∈ l → ind.marketOpenOnly = false) :
    ((Spec.inOne offs m d).run offs (Spec.unzoned l)).objs =
      (d.run offs l).objs.map (fun o => { o with set := Spec.inZone offs m o.set }) := by
  have h0 : TwinDesk offs m d (Spec.inOne offs m d) := by
    refine ⟨?_, ?_, ?_⟩
    · have hx := hd.epics
      unfold Spec.inOne
      dsimp only
      generalize d.epics = es at hx
      induction es with
      | nil => exact .nil
      | cons x es ih =>
        refine .cons ?_ (ih (fun y hy => hx y (List.mem_cons_of_mem _ hy)))
        obtain ⟨x1, n, x2⟩ := hx x List.mem_cons_self
        have hp : Proper offs x.1.lastTick.dt := by rw [x1]; exact epoch_proper ho
        exact ⟨⟨n, x2⟩, hp, rfl, hp, rfl, rfl⟩
    · intro o hm
      obtain ⟨a1, a2, a3, a4⟩ := ha o hm
      obtain ⟨_, g2, _⟩ := hd.objs o hm
      exact ⟨a1, accepted_tiles a2, a3, a4, by intro f hf; rw [g2] at hf; cases hf⟩
    · have hx := hd.objs
      unfold Spec.inOne
      dsimp only
      generalize d.objs = os at hx
      induction os with
      | nil => rfl
      | cons o os ih =>
        rw [List.map_cons, ← ih (fun y hy => hx y (List.mem_cons_of_mem _ hy))]
        congr 1
        obtain ⟨_, g2, _, g4⟩ := hx o List.mem_cons_self
        rcases o with ⟨ref, ⟨⟨a, b, c, d, e, f⟩, zs⟩, owner⟩
        dsimp only at g2 g4
        subst g2 g4
        rfl
  have hrun : ∀ (l : List ZDCmd), (∀ j ind, ZDCmd.indicator j ind ∈ l → ind.marketOpenOnly = false) → ∀ {d d' : ZDesk}, TwinDesk offs m d d' →
      TwinDesk offs m (d.run offs l) (d'.run offs (Spec.unzoned l)) := by
    intro l
    induction l with
    | nil => intro _ d d' h; exact h
    | cons c l ih =>
      intro hl d d' h
      have hl' : ∀ j ind, ZDCmd.indicator j ind ∈ l → ind.marketOpenOnly = false := fun j ind hm => hl j ind (List.mem_cons_of_mem _ hm)
      rcases c with ⟨e, t⟩ | ⟨e, i⟩ | ⟨i, ind⟩ | ⟨e, n⟩
      · exact ih hl' (h.exec (.tick e t) (fun _ _ h => by cases h) (fun _ _ h => by cases h)).1
      · exact ih hl' (h.exec (.add e i) (fun _ _ h => by cases h) (fun _ _ h => by cases h)).1
      · exact ih hl' (h.exec (.indicator i ind) (fun _ _ h => by cases h)
          (fun j ind' h => by cases h; exact hl i ind List.mem_cons_self)).1
      · exact ih hl' (h.zone e n)
  exact (hrun l hl h0).objs

/-! ## Contiguity, and ticks out of order -/

/-- Full claim: if ticks come in order, the frames of a frame set of epics of several zones are contiguous. -/
def Spec.C103 : Prop :=
  ∀ (offs : ℕ → ℤ) (d : ZDesk) (j : ℕ) (u : Unit') (q : ℤ) (l : List ZDCmd) (i : ℕ) (a b a' b' : ℤ) (n n' : ℕ),
    Spec.Table offs → Spec.NewMarkets offs d → Spec.Accepted u q → Spec.Timeframe d j u q →
    (∀ l₁ e t l₂, l = l₁ ++ ZDCmd.tick e t :: l₂ → Spec.NotBefore l₁ t.dt.utc) → (∀ e n, ZDCmd.zone e n ∉ l) →
    Spec.MadeIn (d.run offs l) j i a b n → Spec.MadeIn (d.run offs l) j (i + 1) a' b' n' → a' = b

/-- Full claim: whatever the order of the ticks of different epics, a tick lies in the period of the frame it is added to. -/
def Spec.C103_any_order : Prop :=
  ∀ (offs : ℕ → ℤ) (d : ZDesk) (j : ℕ) (u : Unit') (q : ℤ) (l : List ZDCmd) (e : ℕ) (t : Tick) (o : ZObj) (i : ℕ) (f : Frame) (a b : ℤ),
    Spec.Table offs → Spec.NewMarkets offs d → Spec.Accepted u q → Spec.Timeframe d j u q → Spec.HoldsSet (d.run offs l) e j →
    ((d.run offs l).exec offs (.tick e t)).2 = none → ((d.run offs l).exec offs (.tick e t)).1.objs[j]? = some o →
    o.set.fs.current = some (i, f) → Spec.Period f a b → a ≤ t.dt.utc

end

namespace Demo

/-- An epic in zone 0 (UTC) and one in zone `n` of the table, and a new frame set. -/
def markets (n : ℕ) (u : Unit') (q : ℤ) : ZDesk :=
  ⟨[(Epic.new "e" (tableZone table 0) (8 * hourUs) (18 * hourUs) [] [] 0, []), (Epic.new "f" (tableZone table n) (8 * hourUs) (18 * hourUs) [] [] 0, [])],
    [⟨"s", ⟨⟨u, q, 100, [], [], []⟩, []⟩, none⟩]⟩

theorem markets_new (n : ℕ) (u : Unit') (q : ℤ) : Spec.NewMarkets table (markets n u q) := by
  refine ⟨?_, ?_⟩
  · intro x hx
    rcases List.mem_cons.mp hx with rfl | hx
    · exact ⟨rfl, 0, rfl⟩
    · rw [List.mem_singleton.mp hx]
      exact ⟨rfl, n, rfl⟩
  · intro o hm
    rw [List.mem_singleton.mp hm]
    exact ⟨rfl, rfl, rfl, rfl⟩

theorem markets_frame (n : ℕ) (u : Unit') (q : ℤ) : Spec.Timeframe (markets n u q) 0 u q := ⟨_, rfl, rfl, rfl⟩

/-- A tick so many hours after midnight of Monday, UTC. -/
def mtick (h : ℤ) (bid : ℚ) : Tick := ⟨⟨monday + h * hourUs, monday + h * hourUs, 0⟩, bid, bid + 1⟩

/-- Both epics hold the frame set; a tick of the first one on Monday at noon. -/
def shared : List ZDCmd := [.add 0 0, .add 1 0, .tick 0 (mtick 12 10)]

end Demo

/-- C103 is false: the epics are in UTC and two hours to the west, the frames are days; the first epic gets a tick at noon on Monday, the
second one at 01:00 UTC on Tuesday (23:00 on Monday there): the frame of that tick begins at 02:00 UTC on Monday. -/
theorem C103_false : ¬ @Spec.C103 Arith.exact := by
  letI := Arith.exact
  intro h
  have := h Demo.table (Demo.markets 1 .day 1) 0 .day 1 (Demo.shared ++ [.tick 1 (Demo.mtick 25 12)]) 0
    Demo.monday (Demo.monday + 24 * hourUs) (Demo.monday + 2 * hourUs) (Demo.monday + 26 * hourUs) 0 1 Demo.table_ok
    (Demo.markets_new _ _ _) (by unfold Spec.Accepted; decide) (Demo.markets_frame _ _ _)
    (by
      intro l₁ e t l₂ hl
      rcases l₁ with _ | ⟨c1, _ | ⟨c2, _ | ⟨c3, _ | ⟨c4, _ | ⟨c5, l₁⟩⟩⟩⟩⟩ <;>
        simp only [Demo.shared, List.cons_append, List.nil_append, List.cons.injEq, reduceCtorEq, false_and, and_false] at hl
      · obtain ⟨rfl, rfl, ht, -⟩ := hl
        intro e' t' hm
        rcases List.mem_cons.mp hm with hm | hm
        · cases hm
        · rcases List.mem_cons.mp hm with hm | hm
          · cases hm
          · cases hm
      · obtain ⟨rfl, rfl, rfl, ht, -⟩ := hl
        cases ht
        intro e' t' hm
        rcases List.mem_cons.mp hm with hm | hm
        · cases hm
        · rcases List.mem_cons.mp hm with hm | hm
          · cases hm
          · rcases List.mem_cons.mp hm with hm | hm
            · cases hm
              decide +kernel
            · cases hm
      )
    (by
      intro e n hm
      simp [Demo.shared] at hm)
    ⟨_, _, rfl, rfl, by unfold Spec.Period; decide +kernel, by decide +kernel⟩
    ⟨_, _, rfl, rfl, by unfold Spec.Period; decide +kernel, by decide +kernel⟩
  revert this
  decide +kernel

/-- C103_any_order is false: the second epic gets a tick of Sunday after the first one got one of Monday: no exception, and it becomes
the last tick of the frame of Monday. -/
theorem C103_any_order_false : ¬ @Spec.C103_any_order Arith.exact := by
  letI := Arith.exact
  intro h
  have := h Demo.table (Demo.markets 1 .day 1) 0 .day 1 Demo.shared 1 (Demo.mtick (-10) 12) _ _ _ Demo.monday
    (Demo.monday + 24 * hourUs) Demo.table_ok
    (Demo.markets_new _ _ _) (by unfold Spec.Accepted; decide) (Demo.markets_frame _ _ _) ⟨_, "s", rfl, by decide +kernel⟩
    (by decide +kernel) rfl rfl (by unfold Spec.Period; decide +kernel)
  revert this
  decide +kernel

/-- C103_tick_in_frame and C103_zone: after the tick of the witness the frame set has a frame in each zone and the tick is in the last one. -/
example : letI := Arith.exact
    let d := (Demo.markets 1 .day 1).run Demo.table Demo.shared
    (d.exec Demo.table (.tick 1 (Demo.mtick 25 12))).2 = none ∧
    (d.exec Demo.table (.tick 1 (Demo.mtick 25 12))).1.objs.map (fun o => o.set.zones) = [[0, 1]] ∧
    (d.exec Demo.table (.tick 0 (Demo.mtick 25 12))).1.objs.map (fun o => o.set.zones) = [[0, 0]] ∧
    (d.exec Demo.table (.tick 1 (Demo.mtick 13 12))).1.objs.map (fun o => o.set.zones) = [[0]] := by
  letI := Arith.exact
  decide +kernel

/-- C103_tick_in_frame: its hypotheses hold of the witness. -/
example : letI := Arith.exact
    Spec.HoldsSet ((Demo.markets 1 .day 1).run Demo.table Demo.shared) 1 0 ∧ Spec.NotBefore Demo.shared (Demo.mtick 25 12).dt.utc ∧
    Spec.Accepted .day 1 := by
  letI := Arith.exact
  refine ⟨⟨_, "s", rfl, by decide +kernel⟩, ?_, by unfold Spec.Accepted; decide⟩
  intro e t hm
  simp only [Demo.shared, List.mem_cons, reduceCtorEq, false_or, List.not_mem_nil, or_false] at hm
  cases hm
  decide +kernel

/-- C103_ticks: the second epic takes a tick that is before the last one of the first epic, and the first epic refuses it. -/
example : letI := Arith.exact
    let d := (Demo.markets 1 .day 1).run Demo.table Demo.shared
    (d.exec Demo.table (.tick 1 (Demo.mtick (-10) 12))).2 = none ∧
    (d.exec Demo.table (.tick 0 (Demo.mtick (-10) 12))).2 = some .epic ∧
    (d.exec Demo.table (.tick 1 (Demo.mtick (-10) 12))).1.epics.map (fun x => x.1.lastTick.dt.wall) =
      [Demo.monday + 12 * hourUs, Demo.monday - 12 * hourUs] := by
  letI := Arith.exact
  decide +kernel

/-- C103_assignment and C103_local: the second epic gets zone 3 and the first one stays in UTC. -/
example : letI := Arith.exact
    let d := (Demo.markets 1 .day 1).run Demo.table Demo.shared
    (d.exec Demo.table (.zone 1 (some 3))).1.epics.map (fun x => (x.1.zone.off 0, x.2)) =
      [(Demo.table 0, [("s", 0)]), (Demo.table 3, [("s", 0)])] ∧
    (d.exec Demo.table (.zone 1 none)).2 = some .epic ∧ Demo.table 1 ≠ Demo.table 3 := by
  letI := Arith.exact
  decide +kernel

/-- C103_no_gap: after five days the gap is filled with days of the zone of the first frame, and the last frame is in the other zone. -/
example : letI := Arith.exact
    let d := (Demo.markets 2 .day 1).run Demo.table (Demo.shared ++ [.tick 1 (Demo.mtick (4 * 24 + 23) 12)])
    d.objs.map (fun o => o.set.zones) = [[0, 0, 0, 0, 0, 2]] ∧
    d.objs.map (fun o => o.set.fs.heap.map (fun f => (f.periodStart - Demo.monday) / hourUs)) = [[0, 24, 48, 72, 96, 118]] := by
  letI := Arith.exact
  decide +kernel

/-- C103_unaffected_partial: three epics' worth of zones and frames of five minutes: the same frames as with both epics in UTC. -/
example : letI := Arith.exact
    let l : List ZDCmd := Demo.shared ++ [.indicator 0 ⟨"i", .japanese, false⟩, .tick 1 (Demo.mtick 13 14), .zone 0 (some 3), .tick 0 (Demo.mtick 14 9)]
    ((Demo.markets 2 .minute 5).run Demo.table l).objs.map (fun o => o.set.zones.getLast?) = [some 3] ∧
    ((Spec.inOne Demo.table 0 (Demo.markets 2 .minute 5)).run Demo.table (Spec.unzoned l)).objs =
      ((Demo.markets 2 .minute 5).run Demo.table l).objs.map (fun o => { o with set := Spec.inZone Demo.table 0 o.set }) ∧
    ((Spec.inOne Demo.table 0 (Demo.markets 2 .minute 5)).run Demo.table (Spec.unzoned l)).objs ≠
      ((Demo.markets 2 .minute 5).run Demo.table l).objs := by
  letI := Arith.exact
  decide +kernel

/-- C103_one_zone: two epics in the same zone. -/
example : letI := Arith.exact
    (∀ x ∈ (Demo.markets 0 .day 1).epics, x.1.zone = tableZone Demo.table 0) ∧
    ((Spec.asDesk Demo.table 0 (Demo.markets 0 .day 1)).run (Demo.shared.filterMap Spec.asDCmd)).objs.length = 1 := by
  letI := Arith.exact
  refine ⟨?_, by decide +kernel⟩
  intro x hx
  rcases List.mem_cons.mp hx with rfl | hx
  · rfl
  · rw [List.mem_singleton.mp hx]; rfl

/-- Frame sets of ticks look at the date of the epic they were last added to: at 23:00 UTC the second epic, two hours to the east, is in
the next day, and the first one in its own: with three ticks per frame, the ticks of the epic that is ahead each begin a frame as
long as the frame set belongs to the other one. -/
example : letI := Arith.exact
    let late : List ZDCmd := [.tick 0 (Demo.mtick 23 10), .tick 1 (Demo.mtick 23 11), .tick 1 (Demo.mtick 23 12)]
    ((Demo.markets 2 .tick 3).run Demo.table ([.add 1 0, .add 0 0] ++ late)).objs.map (fun o => o.set.fs.heap.map (fun f => f.nbTicks)) = [[1, 1, 1]] ∧
    ((Demo.markets 2 .tick 3).run Demo.table ([.add 0 0, .add 1 0] ++ late)).objs.map (fun o => o.set.fs.heap.map (fun f => f.nbTicks)) = [[3]] := by
  letI := Arith.exact
  decide +kernel

end Estrade
