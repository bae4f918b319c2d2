import Verif.Lemmas.Repeat
import Verif.Lemmas.Recount

/-!
# Several ticks given to the current frame

What the current frame and the values of its indicators are after a list of ticks that all belong to it depends only on the
first, the highest, the lowest and the last of these ticks.
-/

set_option linter.unusedSectionVars false
set_option autoImplicit false

namespace Estrade

section
variable [Arith]

/-! ## Highest and lowest -/

def top (x : Tick) (K : List Tick) : Tick := K.foldl (fun m t => if m.value < t.value then t else m) x

def bottom (x : Tick) (K : List Tick) : Tick := K.foldl (fun m t => if t.value < m.value then t else m) x

theorem top_snoc (x : Tick) (K : List Tick) (t : Tick) :
    top x (K ++ [t]) = if (top x K).value < t.value then t else top x K := by
  unfold top; rw [List.foldl_append]; rfl

theorem bottom_snoc (x : Tick) (K : List Tick) (t : Tick) :
    bottom x (K ++ [t]) = if t.value < (bottom x K).value then t else bottom x K := by
  unfold bottom; rw [List.foldl_append]; rfl

theorem top_keep {x : Tick} {K : List Tick} (h : ∀ t ∈ K, t.value ≤ x.value) : top x K = x := by
  induction K with
  | nil => rfl
  | cons t K ih =>
    unfold top
    rw [List.foldl_cons, if_neg (not_lt.mpr (h t List.mem_cons_self))]
    exact ih (fun y hy => h y (List.mem_cons_of_mem _ hy))

theorem bottom_keep {x : Tick} {K : List Tick} (h : ∀ t ∈ K, x.value ≤ t.value) : bottom x K = x := by
  induction K with
  | nil => rfl
  | cons t K ih =>
    unfold bottom
    rw [List.foldl_cons, if_neg (not_lt.mpr (h t List.mem_cons_self))]
    exact ih (fun y hy => h y (List.mem_cons_of_mem _ hy))

theorem top_below {K : List Tick} {m : ℚ} : ∀ {x : Tick}, x.value < m → (∀ t ∈ K, t.value < m) → (top x K).value < m := by
  induction K with
  | nil => intro x hx _; exact hx
  | cons t K ih =>
    intro x hx h
    unfold top
    rw [List.foldl_cons]
    refine ih ?_ (fun y hy => h y (List.mem_cons_of_mem _ hy))
    split_ifs
    · exact h t List.mem_cons_self
    · exact hx

theorem bottom_above {K : List Tick} {m : ℚ} : ∀ {x : Tick}, m < x.value → (∀ t ∈ K, m < t.value) → m < (bottom x K).value := by
  induction K with
  | nil => intro x hx _; exact hx
  | cons t K ih =>
    intro x hx h
    unfold bottom
    rw [List.foldl_cons]
    refine ih ?_ (fun y hy => h y (List.mem_cons_of_mem _ hy))
    split_ifs
    · exact h t List.mem_cons_self
    · exact hx

theorem Spec.Summary.top {K : List Tick} {f h l la : Tick} (s : Spec.Summary K f h l la) (x : Tick) :
    Estrade.top x K = if x.value < h.value then h else x := by
  split_ifs with hx
  · obtain ⟨pre, post, rfl, h1, h2⟩ := s.high
    have hb := top_below (K := pre) hx h1
    unfold Estrade.top at hb ⊢
    rw [List.foldl_append, List.foldl_cons, if_pos hb]
    exact top_keep h2
  · exact top_keep (fun t ht => (s.le_high t ht).trans (not_lt.mp hx))

theorem Spec.Summary.bottom {K : List Tick} {f h l la : Tick} (s : Spec.Summary K f h l la) (x : Tick) :
    Estrade.bottom x K = if l.value < x.value then l else x := by
  split_ifs with hx
  · obtain ⟨pre, post, rfl, h1, h2⟩ := s.low
    have hb := bottom_above (K := pre) hx h1
    unfold Estrade.bottom at hb ⊢
    rw [List.foldl_append, List.foldl_cons, if_pos hb]
    exact bottom_keep h2
  · exact bottom_keep (fun t ht => (not_lt.mp hx).trans (s.low_le t ht))

theorem top_bottom_ordered {lo hi : Tick} (h : lo.value ≤ hi.value) (K : List Tick) : (bottom lo K).value ≤ (top hi K).value := by
  induction K using List.reverseRecOn with
  | nil => exact h
  | append_singleton K t ih =>
    rw [top_snoc, bottom_snoc]
    split_ifs with h1 h2 h2
    · exact le_rfl
    · exact h1.le.trans ih
    · exact ih.trans h2.le
    · exact ih

/-! ## Values -/

/-- The last tick of the frame before. -/
def past (heap : List Frame) (f : Frame) : Option Tick := f.prev.bind (fun p => (heap[p]?).map Frame.last)

/-- The RSI of a value when the last tick of its frame is `t`. -/
def lastRsi (g : Option Tick) (t : Tick) (v : IndVal) : Except PyErr (Option ℚ) :=
  match v.ind.kind with
  | .rsi _ (some n) =>
    let ec := match g with
      | none => []
      | some g => v.changes ++ [fsub t.value g.value]
    if n ≠ 0 ∧ (ec.length : ℤ) = n then (buildRsi n ec).map some else .ok v.rsi
  | _ => .ok v.rsi

theorem extendedChanges_past (heap : List Frame) (v : IndVal) (f : Frame) : extendedChanges heap v f =
    match past heap f with
    | none => []
    | some g => v.changes ++ [fsub f.last.value g.value] := by
  unfold extendedChanges past
  rcases f.prev with _ | p
  · rfl
  · simp only [Option.bind_some]
    rcases heap[p]? with _ | g <;> rfl

theorem onNewTick_lastRsi {heap : List Frame} {f : Frame} {v v' : IndVal} {t : Tick} {mo : Bool}
    (h : v.onNewTick heap f t mo = .ok v') : lastRsi (past heap f) f.last v = .ok v'.rsi := by
  have htr : ∀ w : IndVal, (w.track t mo).changes = w.changes ∧ (w.track t mo).rsi = w.rsi := by
    intro w
    rw [IndVal.track_eq]
    split_ifs <;> exact ⟨rfl, rfl⟩
  unfold IndVal.onNewTick at h
  simp only at h
  unfold lastRsi
  rcases hk : v.ind.kind with _ | _ | _ | _ | _ | mp | ⟨p, _ | n⟩ <;> rw [hk] at h <;> simp only at h ⊢
  case rsi.some =>
    unfold updateRsi at h
    simp only at h
    rw [extendedChanges_past, (htr v).1] at h
    revert h
    rcases past heap f with _ | g <;> intro h <;> simp only at h ⊢
    · split_ifs at h ⊢
      · simp only [bind, Except.bind] at h
        split at h
        · cases h
        · rename_i r hr
          cases h
          rw [hr]; rfl
      · cases h
        rw [(htr v).2]
    · split_ifs at h ⊢
      · simp only [bind, Except.bind] at h
        split at h
        · cases h
        · rename_i r hr
          cases h
          rw [hr]; rfl
      · cases h
        rw [(htr v).2]
  all_goals (cases h; rw [(htr v).2])

/-- Only the last update of an RSI counts. -/
theorem lastRsi_twice {g : Option Tick} {a b : Tick} {v w : IndVal} (hi : w.ind = v.ind) (hc : w.changes = v.changes)
    (h : lastRsi g a v = .ok w.rsi) : lastRsi g b w = lastRsi g b v := by
  unfold lastRsi at h ⊢
  rw [hi, hc]
  rcases hk : v.ind.kind with _ | _ | _ | _ | _ | mp | ⟨p, _ | n⟩ <;> rw [hk] at h <;> simp only at h ⊢
  case rsi.some =>
    rcases g with _ | g <;> simp only [List.length_append, List.length_cons, List.length_nil] at h ⊢
    · split_ifs at h ⊢ with h1
      · rfl
      · exact h.symm
    · split_ifs at h ⊢ with h1
      · rfl
      · exact h.symm
  all_goals exact h.symm

/-! ## Frames -/

/-- The value `v` after the ticks `K`, the last of which is `t`. -/
def ValFed (g : Option Tick) (mo : Bool) (K : List Tick) (t : Tick) (v v' : IndVal) : Prop :=
  (if !v.ind.marketOpenOnly || mo then v' = { v with last := t, high := top v.high K, low := bottom v.low K, rsi := v'.rsi }
    else v' = { v with rsi := v'.rsi }) ∧ lastRsi g t v = .ok v'.rsi

/-- The frame `f` after the ticks `K`, the last of which is `t`. -/
structure Fed (heap : List Frame) (reg : Dict Indicator) (mo : Bool) (K : List Tick) (t : Tick) (f f' : Frame) : Prop where
  frame : f' = { f with
    nbTicks := f.nbTicks + K.length, last := t, high := top f.high K, low := bottom f.low K, inds := f'.inds }
  keys : f'.inds.keys = f.inds.keys
  other : ∀ r, reg.get? r = none → f'.get r = f.get r
  none : ∀ r ind, reg.get? r = some ind → f.get r = none → f'.get r = none
  some : ∀ r ind v, reg.get? r = some ind → f.get r = some v → ∃ v', f'.get r = some v' ∧ ValFed (past heap f) mo K t v v'

/-- Every indicator has a value on the frame, or will have none while the market stays as it is. -/
def Ready (reg : Dict Indicator) (mo : Bool) (f : Frame) : Prop :=
  ∀ p ∈ reg, p.1 ∈ f.inds.keys ∧ (f.get p.1 = none → p.2.marketOpenOnly = true ∧ mo = false)

/-- The lowest tick is not above the highest one, in the frame and in its values. -/
def Tidy (f : Frame) : Prop :=
  f.low.value ≤ f.high.value ∧ f.inds.keys.Nodup ∧ ∀ r v, f.get r = some v → v.low.value ≤ v.high.value

theorem upsert_keys_eq {heap : List Frame} {id : ℕ} {t : Tick} {mo : Bool} {reg : Dict Indicator} (hr : ∀ p ∈ reg, p.2.ref = p.1) :
    ∀ {f f' : Frame}, upsert heap id t mo reg f = .ok f' → (∀ p ∈ reg, p.1 ∈ f.inds.keys) → f'.inds.keys = f.inds.keys := by
  induction reg with
  | nil => intro f f' h _; cases h; rfl
  | cons p rest ih =>
    intro f f' h hk
    unfold upsert at h
    rw [List.foldlM_cons] at h
    simp only [bind, Except.bind] at h
    split at h
    · cases h
    rename_i g hg
    have hone : ∃ o, g = { f with inds := f.inds.set p.1 o } := by
      unfold upsertOne at hg
      simp only [bind, Except.bind] at hg
      split at hg
      · split at hg
        · cases hg
        · cases hg; exact ⟨_, rfl⟩
      · split at hg
        · cases hg
        · cases hg; rw [hr p List.mem_cons_self]; exact ⟨_, rfl⟩
    obtain ⟨o, rfl⟩ := hone
    have hkeys : (f.inds.set p.1 o).keys = f.inds.keys := by
      rw [Dict.keys_set, if_pos (hk p List.mem_cons_self)]
    rw [ih (fun p hp => hr p (List.mem_cons_of_mem _ hp)) h (fun x hx => by
      simp only
      rw [hkeys]
      exact hk x (List.mem_cons_of_mem _ hx))]
    exact hkeys

/-- One tick. -/
theorem fed_one {heap : List Frame} {id : ℕ} {t : Tick} {mo : Bool} {reg : Dict Indicator} (hreg : RegOk reg) {f f' : Frame}
    (hr : Ready reg mo f) (ht : Tidy f) (hu : upsert heap id t mo reg (f.track t) = .ok f') : Fed heap reg mo [t] t f f' := by
  have hget : ∀ r, (f.track t).get r = f.get r := by intro r; rw [track_eq]; rfl
  have hinds : (f.track t).inds = f.inds := by rw [track_eq]
  have hprev : (f.track t).prev = f.prev := by rw [track_eq]
  have hlast : (f.track t).last = t := by rw [track_eq]
  have hpast : past heap (f.track t) = past heap f := by unfold past; rw [hprev]
  have hlow : (if f.high.value < t.value then f.low else if t.value < f.low.value then t else f.low) = bottom f.low [t] := by
    unfold bottom
    simp only [List.foldl_cons, List.foldl_nil]
    split_ifs with h1 h2 h2
    · exact absurd (h2.trans_le ht.1) (not_lt.mpr h1.le)
    · rfl
    · rfl
    · rfl
  refine ⟨?_, ?_, ?_, ?_, ?_⟩
  · have h1 := upsert_inds hu
    rw [track_eq, hlow] at h1
    exact h1
  · rw [upsert_keys_eq hreg.refs hu (fun p hp => by rw [hinds]; exact (hr p hp).1), hinds]
  · intro r h0
    rw [(hreg.upsert_get r hu).1 h0, hget]
  · intro r ind hg hn
    have := (hreg.upsert_get r hu).2 ind hg
    rw [hget, hn] at this
    have this : ind.build heap id (f.track t) mo = .ok (f'.get r) := this
    obtain ⟨h1, h2⟩ := (hr (r, ind) (Dict.mem_of_get? hg)).2 hn
    have h1 : ind.marketOpenOnly = true := h1
    unfold Indicator.build at this
    rw [if_neg (by rw [h1, h2]; simp)] at this
    exact (Except.ok.inj this).symm
  · intro r ind v hg hv
    have := (hreg.upsert_get r hu).2 ind hg
    rw [hget, hv] at this
    obtain ⟨v', h1, h2⟩ := this
    refine ⟨v', h2, ?_, ?_⟩
    · have h3 := IndVal.onNewTick_fields h1
      rw [IndVal.track_eq] at h3
      have hvl : (if v.high.value < t.value then v.low else if t.value < v.low.value then t else v.low) = bottom v.low [t] := by
        unfold bottom
        simp only [List.foldl_cons, List.foldl_nil]
        split_ifs with h1 h2 h2
        · exact absurd (h2.trans_le (ht.2.2 r v hv)) (not_lt.mpr h1.le)
        · rfl
        · rfl
        · rfl
      rw [hvl] at h3
      by_cases h4 : (!v.ind.marketOpenOnly || mo) = true
      · rw [if_pos h4] at h3 ⊢; exact h3
      · rw [if_neg h4] at h3 ⊢; exact h3
    · have := onNewTick_lastRsi h1
      rwa [hpast, hlast] at this

theorem ValFed.ordered {g : Option Tick} {mo : Bool} {K : List Tick} {t : Tick} {v v' : IndVal} (h : ValFed g mo K t v v')
    (hv : v.low.value ≤ v.high.value) : v'.low.value ≤ v'.high.value := by
  have h1 := h.1
  split_ifs at h1
  · rw [h1]; exact top_bottom_ordered hv K
  · rw [h1]; exact hv

theorem Fed.tidy {heap : List Frame} {reg : Dict Indicator} {mo : Bool} {K : List Tick} {t : Tick} {f f' : Frame}
    (h : Fed heap reg mo K t f f') (ht : Tidy f) : Tidy f' := by
  refine ⟨?_, by rw [h.keys]; exact ht.2.1, ?_⟩
  · rw [h.frame]; exact top_bottom_ordered ht.1 K
  · intro r v' hv'
    rcases hg : reg.get? r with _ | ind
    · rw [h.other r hg] at hv'; exact ht.2.2 r v' hv'
    · rcases hf : f.get r with _ | v
      · rw [h.none r ind hg hf] at hv'; cases hv'
      · obtain ⟨x, h1, h2⟩ := h.some r ind v hg hf
        rw [h1] at hv'; cases hv'
        exact h2.ordered (ht.2.2 r v hf)

theorem Fed.ready {heap : List Frame} {reg : Dict Indicator} (hreg : RegOk reg) {mo : Bool} {K : List Tick} {t : Tick} {f f' : Frame}
    (h : Fed heap reg mo K t f f') (hr : Ready reg mo f) : Ready reg mo f' := by
  intro p hp
  obtain ⟨h1, h2⟩ := hr p hp
  refine ⟨by rw [h.keys]; exact h1, fun hn => ?_⟩
  have hg : reg.get? p.1 = Option.some p.2 := Dict.get?_of_mem hreg.1 hp
  rcases hf : f.get p.1 with _ | v
  · exact h2 hf
  · obtain ⟨x, h3, -⟩ := h.some p.1 p.2 v hg hf
    rw [h3] at hn; cases hn

/-- One tick more. -/
theorem Fed.snoc {heap heap' : List Frame} {reg : Dict Indicator} {mo : Bool} {K : List Tick} {a b : Tick} {f f' f'' : Frame}
    (h : Fed heap reg mo K a f f') (hp : past heap' f' = past heap f) (h' : Fed heap' reg mo [b] b f' f'') :
    Fed heap reg mo (K ++ [b]) b f f'' := by
  refine ⟨?_, h'.keys.trans h.keys, fun r hr => (h'.other r hr).trans (h.other r hr),
    fun r ind hr hn => h'.none r ind hr (h.none r ind hr hn), ?_⟩
  · have h1 := h.frame
    have h2 := h'.frame
    rw [h1] at h2
    simp only [List.length_append, List.length_cons, List.length_nil, zero_add]
    rw [top_snoc, bottom_snoc]
    simp only [List.length_cons, List.length_nil, zero_add] at h2
    rw [Nat.add_assoc] at h2
    exact h2
  · intro r ind v hr hv
    obtain ⟨v1, g1, k1, k2⟩ := h.some r ind v hr hv
    obtain ⟨v2, g2, l1, l2⟩ := h'.some r ind v1 hr g1
    refine ⟨v2, g2, ?_, ?_⟩
    · split_ifs at k1 with hc
      · rw [if_pos hc]
        have hi : v1.ind = v.ind := by rw [k1]
        rw [hi, if_pos hc] at l1
        rw [k1] at l1
        rw [top_snoc, bottom_snoc]
        exact l1
      · rw [if_neg hc]
        have hi : v1.ind = v.ind := by rw [k1]
        rw [hi, if_neg hc] at l1
        rw [k1] at l1
        exact l1
    · rw [hp] at l2
      refine (lastRsi_twice ?_ ?_ k2).symm.trans l2
      · split_ifs at k1 <;> rw [k1]
      · split_ifs at k1 <;> rw [k1]

theorem Dict.ext_keys {β : Type} : ∀ {d d' : Dict (Option β)}, d.keys = d'.keys → d.keys.Nodup →
    (∀ r, (d.get? r).join = (d'.get? r).join) → d = d' := by
  intro d
  induction d with
  | nil =>
    intro d' hk _ _
    rcases d' with _ | ⟨y, d'⟩
    · rfl
    · cases hk
  | cons x d ih =>
    intro d' hk hn hg
    rcases d' with _ | ⟨y, d'⟩
    · cases hk
    obtain ⟨k, v⟩ := x
    obtain ⟨k', v'⟩ := y
    obtain ⟨rfl, hk'⟩ : k = k' ∧ Dict.keys d = Dict.keys d' := by
      simpa [Dict.keys] using hk
    have hn' : k ∉ Dict.keys d ∧ (Dict.keys d).Nodup := by simpa [Dict.keys] using hn
    have hv : v = v' := by
      have := hg k
      simpa [Dict.get?] using this
    subst hv
    congr 1
    refine ih hk' hn'.2 (fun r => ?_)
    by_cases hr : r = k
    · subst hr
      rw [(Dict.get?_eq_none _ _).mpr hn'.1, (Dict.get?_eq_none _ _).mpr (hk' ▸ hn'.1)]
    · have := hg r
      have hkr : (k == r) = false := by simpa using fun h => hr h.symm
      simpa [Dict.get?, List.find?_cons, hkr] using this

/-- Two lists of ticks with the same first, highest, lowest and last tick leave the same frame but for its count. -/
theorem Fed.same {heap : List Frame} {reg : Dict Indicator} {mo : Bool} {K K' : List Tick} {a h l t : Tick} {f f1 f2 : Frame}
    (ht : Tidy f) (s : Spec.Summary K a h l t) (s' : Spec.Summary K' a h l t) (h1 : Fed heap reg mo K t f f1) (h2 : Fed heap reg mo K' t f f2) :
    Spec.uncountedFrame f1 = Spec.uncountedFrame f2 := by
  have htop : ∀ x, top x K = top x K' := by intro x; rw [s.top, s'.top]
  have hbot : ∀ x, bottom x K = bottom x K' := by intro x; rw [s.bottom, s'.bottom]
  have hinds : f1.inds = f2.inds := by
    refine Dict.ext_keys (h1.keys.trans h2.keys.symm) (by rw [h1.keys]; exact ht.2.1) (fun r => ?_)
    change f1.get r = f2.get r
    rcases hg : reg.get? r with _ | ind
    · rw [h1.other r hg, h2.other r hg]
    · rcases hf : f.get r with _ | v
      · rw [h1.none r ind hg hf, h2.none r ind hg hf]
      · obtain ⟨v1, g1, k1, k2⟩ := h1.some r ind v hg hf
        obtain ⟨v2, g2, l1, l2⟩ := h2.some r ind v hg hf
        rw [g1, g2]
        have hrsi : v1.rsi = v2.rsi := by
          rw [k2] at l2
          exact Except.ok.inj l2
        congr 1
        split_ifs at k1 l1
        · rw [k1, l1, hrsi, htop, hbot]
        · rw [k1, l1, hrsi]
  rw [h1.frame, h2.frame, hinds, htop, hbot]
  rfl

/-! ## Frame sets -/

/-- The ticks of a list given one after the other. -/
def FrameSet.feedList (fs : FrameSet) (l : List (Ctx × Tick)) : Except PyErr FrameSet :=
  l.foldlM (fun fs p => fs.onNewTick p.1 p.2) fs

theorem feedList_snoc (fs : FrameSet) (l : List (Ctx × Tick)) (p : Ctx × Tick) :
    fs.feedList (l ++ [p]) = (fs.feedList l).bind (fun gs => gs.onNewTick p.1 p.2) := by
  unfold FrameSet.feedList
  rw [List.foldlM_append]
  simp only [bind, Except.bind]
  split
  · rfl
  · rename_i gs h
    simp only [List.foldlM_cons, List.foldlM_nil, bind, Except.bind]
    split
    · rename_i h'; rw [h']
    · rename_i h'; rw [h']; rfl

theorem current_heap {fs : FrameSet} {i : ℕ} {f : Frame} (h : fs.current = some (i, f)) : fs.frames.getLast? = some i ∧ fs.heap[i]? = some f := by
  unfold FrameSet.current at h
  rcases hl : fs.frames.getLast? with _ | j
  · rw [hl] at h; cases h
  · rw [hl] at h
    simp only at h
    rcases hj : fs.heap[j]? with _ | g
    · rw [hj] at h; cases h
    · rw [hj] at h
      cases h
      exact ⟨rfl, hj⟩

theorem current_set {fs : FrameSet} {i : ℕ} {f g : Frame} (h : fs.current = some (i, f)) :
    ({ fs with heap := fs.heap.set i g } : FrameSet).current = some (i, g) := by
  obtain ⟨h1, h2⟩ := current_heap h
  unfold FrameSet.current
  simp only [h1]
  rw [List.getElem?_set_self (List.getElem?_eq_some_iff.mp h2).1]
  rfl

/-- Ticks before the end of the current frame. -/
theorem feedList_fed {fs : FrameSet} (hu : fs.unit ≠ .tick) {i : ℕ} {f : Frame} {pe : ℤ} (hc : fs.current = some (i, f))
    (hpe : f.periodEnd = some pe) (hprev : f.prev ≠ some i) (hreg : RegOk fs.indicators) {mo : Bool} (hr : Ready fs.indicators mo f)
    (ht : Tidy f) {l : List (Ctx × Tick)} (hl : l ≠ []) (hmo : ∀ p ∈ l, p.1.marketOpen = mo) (hw : ∀ p ∈ l, p.2.dt.wall < pe) :
    ∀ {fs' : FrameSet}, fs.feedList l = .ok fs' → ∃ f' t, (l.map Prod.snd).getLast? = some t ∧
      fs' = { fs with heap := fs.heap.set i f' } ∧ Fed fs.heap fs.indicators mo (l.map Prod.snd) t f f' := by
  have step : ∀ {gs gs' : FrameSet} {g : Frame} {p : Ctx × Tick}, gs.unit ≠ .tick → gs.current = some (i, g) → g.periodEnd = some pe →
      RegOk gs.indicators → Ready gs.indicators mo g → Tidy g → p.1.marketOpen = mo → p.2.dt.wall < pe → gs.onNewTick p.1 p.2 = .ok gs' →
      ∃ g', gs' = { gs with heap := gs.heap.set i g' } ∧ Fed gs.heap gs.indicators mo [p.2] p.2 g g' := by
    intro gs gs' g p hu hc hpe hreg hr ht hm hw h
    have hno : gs.overTimed p.2 = .ok false := by
      unfold FrameSet.overTimed
      rw [hc]
      simp only [hpe, not_le.mpr hw, decide_false]
    unfold FrameSet.onNewTick at h
    rw [if_neg hu, hno] at h
    simp only [bind, Except.bind, Bool.false_eq_true, if_false] at h
    unfold FrameSet.addToLast at h
    rw [hc] at h
    simp only [bind, Except.bind] at h
    split at h
    · cases h
    rename_i g' hg'
    cases h
    rw [hm] at hg'
    exact ⟨g', rfl, fed_one hreg hr ht hg'⟩
  induction l using List.reverseRecOn with
  | nil => intro _ _; exact absurd rfl hl
  | append_singleton l p ih =>
    intro fs' h
    have hpm := hmo p (by simp)
    have hpw := hw p (by simp)
    rcases List.eq_nil_or_concat l with rfl | ⟨l0, x, hl0⟩
    · have h : fs.onNewTick p.1 p.2 = .ok fs' := by
        rw [feedList_snoc] at h; exact h
      obtain ⟨g', h1, h2⟩ := step hu hc hpe hreg hr ht hpm hpw h
      exact ⟨g', p.2, rfl, h1, h2⟩
    · have hne : l ≠ [] := by rw [hl0]; simp
      rw [feedList_snoc] at h
      rcases hx : fs.feedList l with e | gs
      · rw [hx] at h; cases h
      rw [hx] at h
      have h : gs.onNewTick p.1 p.2 = .ok fs' := h
      obtain ⟨g, t, -, hgs, hF⟩ := ih hne (fun q hq => hmo q (by simp [hq])) (fun q hq => hw q (by simp [hq])) hx
      have hgc : gs.current = some (i, g) := by rw [hgs]; exact current_set hc
      have hgi : gs.indicators = fs.indicators := by rw [hgs]
      have hgpe : g.periodEnd = some pe := by rw [hF.frame]; exact hpe
      have hgp : g.prev = f.prev := by rw [hF.frame]
      obtain ⟨g', h1, h2⟩ := step (by rw [hgs]; exact hu) hgc hgpe (by rw [hgi]; exact hreg) (by rw [hgi]; exact hF.ready hreg hr)
        (hF.tidy ht) hpm hpw h
      refine ⟨g', p.2, by simp, ?_, ?_⟩
      · rw [h1, hgs]
        simp only [List.set_set]
      · rw [hgi] at h2
        rw [List.map_append]
        refine hF.snoc ?_ h2
        unfold past
        rw [hgp, hgs]
        rcases hfp : f.prev with _ | q
        · rfl
        · simp only [Option.bind_some]
          rw [List.getElem?_set_ne (fun h => hprev (by rw [hfp, h]))]

/-- Two lists of ticks before the end of the current frame, with the same first, highest, lowest and last tick. -/
theorem feedList_same {fs : FrameSet} (hu : fs.unit ≠ .tick) {i : ℕ} {f : Frame} {pe : ℤ} (hc : fs.current = some (i, f))
    (hpe : f.periodEnd = some pe) (hprev : f.prev ≠ some i) (hreg : RegOk fs.indicators) {mo : Bool} (hr : Ready fs.indicators mo f)
    (ht : Tidy f) {l l' : List (Ctx × Tick)} (hmo : ∀ p ∈ l ++ l', p.1.marketOpen = mo) (hw : ∀ p ∈ l ++ l', p.2.dt.wall < pe)
    {a hi lo la : Tick} (s : Spec.Summary (l.map Prod.snd) a hi lo la) (s' : Spec.Summary (l'.map Prod.snd) a hi lo la)
    {fs1 fs2 : FrameSet} (h1 : fs.feedList l = .ok fs1) (h2 : fs.feedList l' = .ok fs2) : Spec.uncounted fs1 = Spec.uncounted fs2 := by
  have hne : ∀ {l : List (Ctx × Tick)}, Spec.Summary (l.map Prod.snd) a hi lo la → l ≠ [] := by
    rintro l s rfl
    cases s.first
  obtain ⟨f1, t1, e1, rfl, g1⟩ := feedList_fed hu hc hpe hprev hreg hr ht (hne s) (fun p hp => hmo p (by simp [hp]))
    (fun p hp => hw p (by simp [hp])) h1
  obtain ⟨f2, t2, e2, rfl, g2⟩ := feedList_fed hu hc hpe hprev hreg hr ht (hne s') (fun p hp => hmo p (by simp [hp]))
    (fun p hp => hw p (by simp [hp])) h2
  rw [s.last] at e1
  rw [s'.last] at e2
  cases e1
  cases e2
  unfold Spec.uncounted
  simp only [List.map_set]
  rw [g1.same ht s s' g2]

end
end Estrade
