import Verif.Lemmas.TickSet
import Verif.Lemmas.Dicts
import Verif.Indicators

/-!
# Indicator values represent the eligible events of their frame
-/

set_option autoImplicit false
set_option linter.unusedSectionVars false

namespace Estrade

variable [Arith]

/-- Registered indicators are stored under their reference. -/
def RegOk (d : Dict Indicator) : Prop := d.keys.Nodup ∧ ∀ k ind, d.get? k = some ind → ind.ref = k

theorem RegOk.set {d : Dict Indicator} (h : RegOk d) (ind : Indicator) : RegOk (d.set ind.ref ind) := by
  refine ⟨Dict.keys_set_nodup _ _ _ h.1, ?_⟩
  intro k x hx
  rw [Dict.get?_set] at hx
  split_ifs at hx with hk
  · cases hx; exact hk
  · exact h.2 k x hx

theorem addIndicator_reg (fs : FrameSet) (i : Indicator) : ∃ i' : Indicator, i'.ref = i.ref ∧
    i'.marketOpenOnly = i.marketOpenOnly ∧
    (fs.addIndicator i).1.indicators = fs.indicators.set i'.ref i' := by
  unfold FrameSet.addIndicator
  split
  · rename_i p x h
    exact ⟨{ i with kind := .rsi p (some (p * fs.qty)) }, rfl, rfl, rfl⟩
  · exact ⟨i, rfl, rfl, rfl⟩

theorem Built.regOk {u : Unit'} {q m : ℤ} {fs : FrameSet} {A : List AF} (h : Built u q m fs A) :
    RegOk fs.indicators := by
  induction h with
  | new => exact ⟨List.nodup_nil, by intro k x h; cases h⟩
  | ind i _ ih =>
    obtain ⟨i', -, -, h⟩ := addIndicator_reg ‹_› i
    rw [h]; exact ih.set i'
  | create c t ps pe _ h ih => rw [createFrame_fields h]; exact ih
  | add c t _ h ih => rw [addToLast_fields h]; exact ih

theorem Frame.get_set (f : Frame) (k r : String) (o : Option IndVal) :
    Frame.get { f with inds := f.inds.set k o } r = if k = r then o else f.get r := by
  unfold Frame.get
  simp only
  rw [Dict.get?_set]
  split_ifs <;> rfl

/-! ## Values depend only on the last tick and the previous link of the frame -/

theorem extendedChanges_congr {heap : List Frame} {v : IndVal} {f g : Frame} (hl : f.last = g.last)
    (hp : f.prev = g.prev) : extendedChanges heap v f = extendedChanges heap v g := by
  unfold extendedChanges; rw [hl, hp]

theorem updateRsi_congr {heap : List Frame} {n : ℤ} {v : IndVal} {f g : Frame} (hl : f.last = g.last)
    (hp : f.prev = g.prev) : updateRsi heap f n v = updateRsi heap g n v := by
  unfold updateRsi; rw [extendedChanges_congr hl hp]

theorem IndVal.onNewTick_congr {heap : List Frame} {v : IndVal} {f g : Frame} {t : Tick} {mo : Bool}
    (hl : f.last = g.last) (hp : f.prev = g.prev) : v.onNewTick heap f t mo = v.onNewTick heap g t mo := by
  unfold IndVal.onNewTick
  simp only
  split
  · exact updateRsi_congr hl hp
  · rfl

theorem IndVal.new_congr {heap : List Frame} {ind : Indicator} {id : ℕ} {f g : Frame}
    (hl : f.last = g.last) (hp : f.prev = g.prev) : IndVal.new heap ind id f = IndVal.new heap ind id g := by
  have hb : IndVal.base ind id f = IndVal.base ind id g := by unfold IndVal.base; rw [hl]
  unfold IndVal.new
  simp only [hb, hp, updateRsi_congr hl hp]

theorem Indicator.build_congr {heap : List Frame} {ind : Indicator} {id : ℕ} {f g : Frame} {mo : Bool}
    (hl : f.last = g.last) (hp : f.prev = g.prev) : ind.build heap id f mo = ind.build heap id g mo := by
  unfold Indicator.build; rw [IndVal.new_congr hl hp]

/-! ## What `_upsert_indicators` does to one reference -/

/-- The effect of one delivery on the value `o` stored under a reference registered for `ind`. -/
def ValStep (heap : List Frame) (id : ℕ) (t : Tick) (mo : Bool) (f : Frame) (ind : Indicator)
    (o o' : Option IndVal) : Prop :=
  match o with
  | some v => ∃ v', v.onNewTick heap f t mo = .ok v' ∧ o' = some v'
  | none => ind.build heap id f mo = .ok o'

theorem upsert_get {heap : List Frame} {id : ℕ} {t : Tick} {mo : Bool} (r : String) {inds : Dict Indicator}
    (hk : inds.keys.Nodup) (hr : ∀ p ∈ inds, p.2.ref = p.1) : ∀ {f f' : Frame},
    upsert heap id t mo inds f = .ok f' →
    (inds.get? r = none → f'.get r = f.get r) ∧
    ∀ ind, inds.get? r = some ind → ValStep heap id t mo f ind (f.get r) (f'.get r) := by
  induction inds with
  | nil => intro f f' h; cases h; exact ⟨fun _ => rfl, fun ind h => by cases h⟩
  | cons p rest ih =>
    intro f f' h
    unfold upsert at h
    rw [List.foldlM_cons] at h
    simp only [bind, Except.bind] at h
    split at h
    · cases h
    rename_i g hg
    have hgi := upsertOne_inds hg
    have hl : g.last = f.last := by rw [hgi]
    have hp : g.prev = f.prev := by rw [hgi]
    have hk' : p.1 ∉ Dict.keys rest ∧ (Dict.keys rest).Nodup := by simpa [Dict.keys] using hk
    obtain ⟨i1, i2⟩ := ih hk'.2 (fun p hp => hr p (List.mem_cons_of_mem _ hp)) h
    have href : p.2.ref = p.1 := hr p List.mem_cons_self
    have hstep : (p.1 ≠ r → g.get r = f.get r) ∧ (p.1 = r → ValStep heap id t mo f p.2 (f.get r) (g.get r)) := by
      unfold upsertOne at hg
      split at hg
      · rename_i v hv
        simp only [bind, Except.bind] at hg
        split at hg
        · cases hg
        rename_i v' hv'
        cases hg
        rw [Frame.get_set]
        constructor
        · intro hne; rw [if_neg hne]
        · intro he
          rw [if_pos he, ← he, hv]
          exact ⟨v', hv', rfl⟩
      · rename_i hv
        simp only [bind, Except.bind] at hg
        split at hg
        · cases hg
        rename_i nv hnv
        cases hg
        rw [Frame.get_set, href]
        constructor
        · intro hne; rw [if_neg hne]
        · intro he
          rw [if_pos he, ← he, hv]
          exact hnv
    rw [Dict.get?_cons]
    by_cases he : p.1 = r
    · have hn : Dict.get? rest r = none := (Dict.get?_eq_none _ _).mpr (he ▸ hk'.1)
      rw [if_pos he]
      refine ⟨nofun, fun ind hi => ?_⟩
      cases hi
      rw [i1 hn]
      exact hstep.2 he
    · rw [if_neg he]
      refine ⟨fun hn => (i1 hn).trans (hstep.1 he), fun ind hi => ?_⟩
      have := i2 ind hi
      rw [hstep.1 he] at this
      unfold ValStep at this ⊢
      generalize f.get r = o at this ⊢
      rcases o with _ | v
      · simp only at this ⊢
        rw [← Indicator.build_congr hl hp]; exact this
      · simp only at this ⊢
        rw [← IndVal.onNewTick_congr hl hp]; exact this

theorem RegOk.upsert_get {heap : List Frame} {id : ℕ} {t : Tick} {mo : Bool} (r : String) {inds : Dict Indicator}
    (h : RegOk inds) {f f' : Frame} (hu : upsert heap id t mo inds f = .ok f') :
    (inds.get? r = none → f'.get r = f.get r) ∧
    ∀ ind, inds.get? r = some ind → ValStep heap id t mo f ind (f.get r) (f'.get r) :=
  Estrade.upsert_get r h.1 (fun p hp => h.2 p.1 p.2 (Dict.get?_of_mem h.1 hp)) hu

/-! ## The ticks seen by a value -/

/-- The ticks seen so far under reference `r`: by which indicator, and which. -/
def scanStep (r : String) (s : Option (Indicator × List Tick)) (e : Ev) : Option (Indicator × List Tick) :=
  match e.reg.get? r with
  | none => s
  | some ind =>
    match s with
    | none => if !ind.marketOpenOnly || e.mo then some (ind, [e.tick]) else none
    | some (i, ts) => if !i.marketOpenOnly || e.mo then some (i, ts ++ [e.tick]) else some (i, ts)

def scan (r : String) (evs : List Ev) : Option (Indicator × List Tick) := evs.foldl (scanStep r) none

/-- The value `o` on frame `i` is that of the seen ticks `s`. -/
def ValOk (r : String) (i : ℕ) (s : Option (Indicator × List Tick)) (o : Option IndVal) : Prop :=
  match s with
  | none => o = none
  | some (ind, ts) => ∃ v, o = some v ∧ v.ind = ind ∧ v.frame = i ∧ ind.ref = r ∧
      Spec.Summary ts v.first v.high v.low v.last

theorem updateRsi_fields {heap : List Frame} {f : Frame} {n : ℤ} {v v' : IndVal}
    (h : updateRsi heap f n v = .ok v') : v' = { v with rsi := v'.rsi } := by
  unfold updateRsi at h
  simp only at h
  split_ifs at h
  · simp only [bind, Except.bind] at h
    split at h
    · cases h
    · cases h; rfl
  · cases h; rfl

/-- The list inherited from the previous value. -/
def inherited (o : Option IndVal) (g : IndVal → Except PyErr (List ℚ)) : Except PyErr (List ℚ) :=
  match o with
  | none => .ok []
  | some p => g p

theorem IndVal.new_sma {heap : List Frame} {ind : Indicator} {id : ℕ} {f : Frame} {mp : ℤ}
    (hk : ind.kind = .sma mp) : IndVal.new heap ind id f =
      match inherited (prevValue heap ind.ref heap.length f.prev) (prevCloses heap) with
      | .error e => .error e
      | .ok lc => .ok { IndVal.base ind id f with closes := sliceFrom lc ((mp - 1) * -1) } := by
  unfold IndVal.new
  rw [hk]
  simp only [bind, Except.bind]
  rcases prevValue heap ind.ref heap.length f.prev with _ | p
  · rfl
  · simp only [inherited]
    cases prevCloses heap p <;> rfl

theorem IndVal.new_rsi {heap : List Frame} {ind : Indicator} {id : ℕ} {f : Frame} {p : ℤ} {n : ℤ}
    (hk : ind.kind = .rsi p (some n)) (hn : n ≠ 0) : IndVal.new heap ind id f =
      match inherited (prevValue heap ind.ref heap.length f.prev) (prevChanges heap) with
      | .error e => .error e
      | .ok lc => updateRsi heap f n { IndVal.base ind id f with changes := sliceFrom lc ((n - 1) * -1) } := by
  unfold IndVal.new
  rw [hk]
  simp only [bind, Except.bind, if_neg hn]
  rcases prevValue heap ind.ref heap.length f.prev with _ | p
  · rfl
  · simp only [inherited]
    cases prevChanges heap p <;> rfl

theorem IndVal.new_fields {heap : List Frame} {ind : Indicator} {id : ℕ} {f : Frame} {v : IndVal}
    (h : IndVal.new heap ind id f = .ok v) :
    v = { IndVal.base ind id f with closes := v.closes, changes := v.changes, rsi := v.rsi } := by
  rcases hk : ind.kind with _ | _ | _ | _ | _ | mp | ⟨p, _ | n⟩
  case sma =>
    rw [IndVal.new_sma hk] at h
    split at h
    · cases h
    · cases h; rfl
  case rsi.none =>
    unfold IndVal.new at h; rw [hk] at h; cases h
  case rsi.some =>
    by_cases hn : n = 0
    · unfold IndVal.new at h; rw [hk] at h; simp [hn] at h
    · rw [IndVal.new_rsi hk hn] at h
      split at h
      · cases h
      · have := updateRsi_fields h
        rw [this]
  all_goals (unfold IndVal.new at h; rw [hk] at h; cases h; rfl)

theorem IndVal.onNewTick_fields {heap : List Frame} {f : Frame} {v v' : IndVal} {t : Tick} {mo : Bool}
    (h : v.onNewTick heap f t mo = .ok v') : v' = { v.track t mo with rsi := v'.rsi } := by
  unfold IndVal.onNewTick at h
  simp only at h
  split at h
  · exact updateRsi_fields h
  · cases h; rfl

theorem IndVal.track_eq (v : IndVal) (t : Tick) (mo : Bool) : v.track t mo =
    if !v.ind.marketOpenOnly || mo then { v with
      last := t,
      high := if v.high.value < t.value then t else v.high,
      low := if v.high.value < t.value then v.low else if t.value < v.low.value then t else v.low }
    else v := by
  unfold IndVal.track
  simp only
  split_ifs <;> rfl

theorem valOk_step {heap : List Frame} {id : ℕ} {t : Tick} {mo : Bool} {r : String} {reg : Dict Indicator}
    (hreg : RegOk reg) {f f' : Frame} (hu : upsert heap id t mo reg f = .ok f') (hl : f.last = t)
    {s : Option (Indicator × List Tick)} (hs : ValOk r id s (f.get r)) :
    ValOk r id (scanStep r s ⟨t, mo, reg⟩) (f'.get r) := by
  obtain ⟨h1, h2⟩ := hreg.upsert_get r hu
  unfold scanStep
  rcases hg : reg.get? r with _ | ind
  · simp only
    rw [h1 hg]; exact hs
  · simp only
    have hv := h2 ind hg
    rcases s with _ | ⟨i, ts⟩
    · rw [show f.get r = none from hs] at hv
      have hv : ind.build heap id f mo = .ok (f'.get r) := hv
      unfold Indicator.build at hv
      simp only
      split_ifs at hv ⊢
      · simp only [bind, Except.bind] at hv
        split at hv
        · cases hv
        · rename_i v hn
          have hf := IndVal.new_fields hn
          injection hv with hv
          refine ⟨v, hv.symm, by rw [hf]; rfl, by rw [hf]; rfl, hreg.2 r ind hg, ?_⟩
          rw [hf]
          simp only [IndVal.base, hl]
          exact Spec.Summary.one t
      · injection hv with hv
        exact hv.symm
    · obtain ⟨v, e1, e2, e3, e4, e5⟩ := hs
      rw [e1] at hv
      obtain ⟨v', g1, g2⟩ := hv
      have hf := IndVal.onNewTick_fields g1
      rw [IndVal.track_eq, e2] at hf
      simp only
      by_cases hm : (!i.marketOpenOnly || mo) = true
      · rw [if_pos hm] at hf
        rw [if_pos hm]
        refine ⟨v', g2, by rw [hf], by rw [hf]; exact e3, e4, ?_⟩
        rw [hf]
        exact e5.append t
      · rw [if_neg hm] at hf
        rw [if_neg hm]
        refine ⟨v', g2, by rw [hf]; exact e2, by rw [hf]; exact e3, e4, ?_⟩
        rw [hf]
        exact e5

theorem Frame.get_bare (f : Frame) (r : String) : f.bare.get r = f.get r := rfl

theorem get_of_bare {f g : Frame} (h : f.bare = g.bare) (r : String) : f.get r = g.get r := by
  rw [← f.get_bare, h, Frame.get_bare]

theorem last_of_bare {f g : Frame} (h : f.bare = g.bare) : f.last = g.last :=
  (congrArg Frame.last h :)

/-- Every value of every frame, under every reference. -/
def IndRep (fs : FrameSet) (A : List AF) : Prop :=
  ∀ (r : String) (i : ℕ) (a : AF) (f : Frame), A[i]? = some a → fs.heap[i]? = some f →
    ValOk r i (scan r a.evs) (f.get r)

theorem snoc_cases {α : Type} {l : List α} {x y : α} {i : ℕ} (h : (l ++ [x])[i]? = some y) :
    (i < l.length ∧ l[i]? = some y) ∨ (i = l.length ∧ y = x) := by
  rcases lt_trichotomy i l.length with hi | hi | hi
  · rw [List.getElem?_append_left hi] at h; exact .inl ⟨hi, h⟩
  · subst hi
    rw [List.getElem?_append_right le_rfl] at h
    simp only [Nat.sub_self, List.getElem?_cons_zero, Option.some.injEq] at h
    exact .inr ⟨rfl, h.symm⟩
  · rw [List.getElem?_eq_none (by simp; omega)] at h; cases h

theorem Built.indRep {u : Unit'} {q m : ℤ} {fs : FrameSet} {A : List AF} (h : Built u q m fs A)
    (hm : 1 ≤ m) : IndRep fs A := by
  induction h with
  | new => intro r i a f ha; simp at ha
  | ind i _ ih => rw [addIndicator_fields]; exact ih
  | create c t ps pe hB h ih =>
    have hR := hB.rep hm
    obtain ⟨g, hu, hb, -, -⟩ := createFrame_inv hR (by rw [hB.fields.2.2]; exact hm) h
    intro r i a f ha hf
    have hbi := hb i
    rw [hf] at hbi
    obtain ⟨f0, hf0, hbare⟩ := Option.map_eq_some_iff.mp hbi.symm
    rw [get_of_bare hbare.symm]
    rcases snoc_cases hf0 with ⟨hi, hf0⟩ | ⟨hi, rfl⟩
    · rw [hR.len] at hi
      rw [List.getElem?_append_left hi] at ha
      exact ih r i a f0 ha hf0
    · rcases snoc_cases ha with ⟨hi', -⟩ | ⟨-, rfl⟩
      · rw [hR.len] at hi; omega
      · subst hi
        exact valOk_step hB.regOk hu rfl (s := none) rfl
  | add c t hB h ih =>
    rename_i fs fs' B x
    have hR := hB.rep hm
    obtain ⟨f0, f1, h0, -, hu, hfs, -⟩ := addToLast_inv hR (by rw [hB.fields.2.2]; exact hm) h
    intro r i a f ha hf
    have hlt : B.length < fs.heap.length := by rw [hR.len]; simp
    rw [hfs] at hf
    simp only at hf
    rcases snoc_cases ha with ⟨hi, ha⟩ | ⟨rfl, rfl⟩
    · rw [List.getElem?_set_ne (by omega)] at hf
      exact ih r i a f (by rw [List.getElem?_append_left hi]; exact ha) hf
    · rw [List.getElem?_set_self hlt] at hf
      cases hf
      unfold scan
      simp only [List.foldl_append, List.foldl_cons, List.foldl_nil]
      refine valOk_step hB.regOk hu (by rw [track_eq]) ?_
      have := ih r B.length x f0 (by simp) h0
      rw [track_eq]; exact this

/-! ## A constant registration -/

theorem scan_const {r : String} {ind : Indicator} {evs : List Ev} (h : ∀ e ∈ evs, e.reg.get? r = some ind) :
    scan r evs = if evs.filter (fun e => !ind.marketOpenOnly || e.mo) = [] then none
      else some (ind, (evs.filter (fun e => !ind.marketOpenOnly || e.mo)).map Ev.tick) := by
  induction evs using List.reverseRecOn with
  | nil => rfl
  | append_singleton evs e ih =>
    have ih := ih (fun x hx => h x (List.mem_append_left _ hx))
    unfold scan at ih ⊢
    rw [List.foldl_append, ih, List.foldl_cons, List.foldl_nil, List.filter_append, List.filter_singleton]
    unfold scanStep
    rw [h e (by simp)]
    by_cases he : (!ind.marketOpenOnly || e.mo) = true
    · by_cases h0 : evs.filter (fun e => !ind.marketOpenOnly || e.mo) = []
      · simp [h0, he]
      · simp [h0, he]
    · by_cases h0 : evs.filter (fun e => !ind.marketOpenOnly || e.mo) = []
      · simp [h0, he]
      · simp [h0, he]

theorem scan_unregistered {r : String} {evs : List Ev} (h : ∀ e ∈ evs, e.reg.get? r = none) :
    scan r evs = none := by
  induction evs using List.reverseRecOn with
  | nil => rfl
  | append_singleton evs e ih =>
    have ih := ih (fun x hx => h x (List.mem_append_left _ hx))
    unfold scan at ih ⊢
    rw [List.foldl_append, ih, List.foldl_cons, List.foldl_nil]
    unfold scanStep
    rw [h e (by simp)]

end Estrade
