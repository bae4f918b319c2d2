import Verif.History
import Verif.Lemmas.Round
import Mathlib.Data.List.Basic

/-!
# The frame heap represents a list of abstract frames

An abstract frame is a period and the list of events (tick, market state, registered indicators) delivered
to it.  `Rep fs A`: the heap of `fs` is the list `A`, the frames in memory are the last `maxFrames`
ones, and the links are those of a doubly linked list of these frames.
-/

set_option autoImplicit false
set_option linter.unusedSectionVars false

namespace Estrade

structure Ev where
  tick : Tick
  mo : Bool
  reg : Dict Indicator

structure AF where
  start : ℤ
  stop : Option ℤ
  evs : List Ev

variable [Arith]

theorem Spec.Summary.one (t : Tick) : Spec.Summary [t] t t t t :=
  ⟨rfl, rfl, ⟨[], [], rfl, by simp, by simp⟩, ⟨[], [], rfl, by simp, by simp⟩⟩

theorem Spec.Summary.le_high {ts : List Tick} {f h l la : Tick} (s : Spec.Summary ts f h l la) :
    ∀ t ∈ ts, t.value ≤ h.value := by
  obtain ⟨pre, post, rfl, h1, h2⟩ := s.high
  intro t ht
  rcases List.mem_append.mp ht with h | h
  · exact (h1 t h).le
  · rcases List.mem_cons.mp h with h | h
    · rw [h]
    · exact h2 t h

theorem Spec.Summary.low_le {ts : List Tick} {f h l la : Tick} (s : Spec.Summary ts f h l la) :
    ∀ t ∈ ts, l.value ≤ t.value := by
  obtain ⟨pre, post, rfl, h1, h2⟩ := s.low
  intro t ht
  rcases List.mem_append.mp ht with h | h
  · exact (h1 t h).le
  · rcases List.mem_cons.mp h with h | h
    · rw [h]
    · exact h2 t h

theorem Spec.Summary.high_mem {ts : List Tick} {f h l la : Tick} (s : Spec.Summary ts f h l la) : h ∈ ts := by
  obtain ⟨pre, post, rfl, -, -⟩ := s.high; simp

theorem Spec.Summary.low_mem {ts : List Tick} {f h l la : Tick} (s : Spec.Summary ts f h l la) : l ∈ ts := by
  obtain ⟨pre, post, rfl, -, -⟩ := s.low; simp

theorem Spec.Summary.first_mem {ts : List Tick} {f h l la : Tick} (s : Spec.Summary ts f h l la) : f ∈ ts :=
  List.mem_of_head? s.first

theorem Spec.Summary.last_mem {ts : List Tick} {f h l la : Tick} (s : Spec.Summary ts f h l la) : la ∈ ts :=
  List.mem_of_getLast? s.last

theorem Spec.Summary.append {ts : List Tick} {f h l la : Tick} (s : Spec.Summary ts f h l la) (t : Tick) :
    Spec.Summary (ts ++ [t]) f (if h.value < t.value then t else h)
      (if h.value < t.value then l else if t.value < l.value then t else l) t := by
  have hne : ts ≠ [] := List.ne_nil_of_mem s.first_mem
  refine ⟨?_, by simp, ?_, ?_⟩
  · rw [List.head?_append, s.first]; rfl
  · split_ifs with hlt
    · exact ⟨ts, [], rfl, fun x hx => lt_of_le_of_lt (s.le_high x hx) hlt, by simp⟩
    · obtain ⟨pre, post, rfl, h1, h2⟩ := s.high
      refine ⟨pre, post ++ [t], by simp, h1, ?_⟩
      intro x hx
      rcases List.mem_append.mp hx with hx | hx
      · exact h2 x hx
      · rw [List.mem_singleton.mp hx]; exact not_lt.mp hlt
  · split_ifs with hgt hlt
    · obtain ⟨pre, post, e, h1, h2⟩ := s.low
      refine ⟨pre, post ++ [t], by rw [e]; simp, h1, ?_⟩
      intro x hx
      rcases List.mem_append.mp hx with hx | hx
      · exact h2 x hx
      · rw [List.mem_singleton.mp hx]
        exact ((s.low_le h s.high_mem).trans_lt hgt).le
    · exact ⟨ts, [], rfl, fun x hx => lt_of_lt_of_le hlt (s.low_le x hx), by simp⟩
    · obtain ⟨pre, post, e, h1, h2⟩ := s.low
      refine ⟨pre, post ++ [t], by rw [e]; simp, h1, ?_⟩
      intro x hx
      rcases List.mem_append.mp hx with hx | hx
      · exact h2 x hx
      · rw [List.mem_singleton.mp hx]; exact not_lt.mp hlt

/-- A frame without its links. -/
def Frame.bare (f : Frame) : Frame := { f with prev := none, next := none }

/-- Everything but the links and the indicators. -/
structure Core (a : AF) (f : Frame) : Prop where
  start : f.periodStart = a.start
  stop : f.periodEnd = a.stop
  count : f.nbTicks = a.evs.length
  sum : Spec.Summary (a.evs.map Ev.tick) f.first f.high f.low f.last

structure Rep (fs : FrameSet) (A : List AF) : Prop where
  len : fs.heap.length = A.length
  frames : fs.frames = List.range' (A.length - fs.maxFrames.toNat)
    (A.length - (A.length - fs.maxFrames.toNat))
  core : ∀ (i : ℕ) (a : AF) (f : Frame), A[i]? = some a → fs.heap[i]? = some f → Core a f
  prev : ∀ (i : ℕ) (f : Frame), fs.heap[i]? = some f →
    f.prev = if A.length - fs.maxFrames.toNat < i then some (i - 1) else none
  next : ∀ (i : ℕ) (f : Frame), fs.heap[i]? = some f →
    f.next = if A.length - fs.maxFrames.toNat ≤ i ∧ i + 1 < A.length then some (i + 1) else none

/-! ## Indicators do not touch anything else -/

theorem upsertOne_inds {heap : List Frame} {id : ℕ} {t : Tick} {mo : Bool} {f f' : Frame}
    {p : String × Indicator} (h : upsertOne heap id t mo f p = .ok f') :
    f' = { f with inds := f'.inds } := by
  unfold upsertOne at h
  split at h
  · simp only [bind, Except.bind] at h
    split at h
    · cases h
    · cases h; rfl
  · simp only [bind, Except.bind] at h
    split at h
    · cases h
    · cases h; rfl

theorem upsert_inds {heap : List Frame} {id : ℕ} {t : Tick} {mo : Bool} {inds : Dict Indicator}
    {f f' : Frame} (h : upsert heap id t mo inds f = .ok f') : f' = { f with inds := f'.inds } := by
  unfold upsert at h
  induction inds generalizing f with
  | nil => cases h; rfl
  | cons p rest ih =>
    rw [List.foldlM_cons] at h
    simp only [bind, Except.bind] at h
    split at h
    · cases h
    · rename_i g hg
      have h1 := upsertOne_inds hg
      have h2 := ih h
      rw [h2, h1]

theorem Core.of_inds {a : AF} {f : Frame} {x : Dict (Option IndVal)} (h : Core a f) :
    Core a { f with inds := x } := ⟨h.start, h.stop, h.count, h.sum⟩

theorem Core.of_bare {a : AF} {f g : Frame} (e : g.bare = f.bare) (h : Core a f) : Core a g := by
  obtain ⟨h1, h2, h3, h4⟩ := h
  cases f; cases g
  simp only [Frame.bare, Frame.mk.injEq] at e
  obtain ⟨rfl, rfl, -, -, rfl, rfl, rfl, rfl, rfl, rfl⟩ := e
  exact ⟨h1, h2, h3, h4⟩

theorem core_fresh (t : Tick) (ps : ℤ) (pe : Option ℤ) (pr : Option ℕ) (mo : Bool) (reg : Dict Indicator) :
    Core ⟨ps, pe, [⟨t, mo, reg⟩]⟩ (Frame.fresh t ps pe pr) :=
  ⟨rfl, rfl, rfl, Spec.Summary.one t⟩

theorem track_eq (f : Frame) (t : Tick) : f.track t = { f with
    nbTicks := f.nbTicks + 1, last := t,
    high := if f.high.value < t.value then t else f.high,
    low := if f.high.value < t.value then f.low else if t.value < f.low.value then t else f.low } := by
  unfold Frame.track
  simp only
  split_ifs <;> rfl

theorem core_track {a : AF} {f : Frame} (h : Core a f) (t : Tick) (mo : Bool) (reg : Dict Indicator) :
    Core { a with evs := a.evs ++ [⟨t, mo, reg⟩] } (f.track t) := by
  rw [track_eq]
  refine ⟨h.start, h.stop, ?_, ?_⟩
  · simp [h.count]
  · simp only [List.map_append, List.map_cons, List.map_nil]
    exact h.sum.append t

/-! ## Eviction -/

theorem cleanLoop_keep {max : ℤ} {heap : List Frame} {l : List ℕ} (h : (l.length : ℤ) ≤ max) :
    cleanLoop max heap l = .ok (heap, l) := by
  match l with
  | [] => simp only [cleanLoop]; rw [if_neg (by simp at h; omega)]
  | [a] => simp only [cleanLoop]; rw [if_neg (by simp at h; omega)]
  | a :: b :: r => simp only [cleanLoop]; rw [if_neg (by omega)]

theorem cleanLoop_one {max : ℤ} {heap : List Frame} {a b : ℕ} {r : List ℕ}
    (h : ((a :: b :: r).length : ℤ) = max + 1) :
    cleanLoop max heap (a :: b :: r) =
      .ok ((heap.modify b (fun f => { f with prev := none })).modify a (fun f => { f with next := none }),
        b :: r) := by
  simp only [cleanLoop]
  rw [if_pos (by omega), cleanLoop_keep (by simp only [List.length_cons] at *; omega)]

/-! ## Creation of a frame -/

theorem range'_getLast? {s k : ℕ} : (List.range' s k).getLast? = if k = 0 then none else some (s + k - 1) := by
  rw [List.getLast?_eq_getElem?]
  rcases k with _ | k
  · simp
  · rw [List.getElem?_range' (by simp)]
    simp

theorem getElem?_modify' {α : Type} (l : List α) (i j : ℕ) (f : α → α) :
    (l.modify i f)[j]? = (l[j]?).map (fun a => if i = j then f a else a) := by
  rw [List.getElem?_modify]; rfl

theorem relink_eq {g : Frame} {p n : Option ℕ} (hp : g.prev = p) (hn : g.next = n) :
    g = { g with prev := p, next := n } := by subst hp; subst hn; rfl

theorem bare_ext {g h : Frame} (hb : g.bare = h.bare) (hp : g.prev = h.prev) (hn : g.next = h.next) :
    g = h := by
  cases g; cases h
  simp only [Frame.bare, Frame.mk.injEq] at hb
  simp_all

theorem Rep.getLast {fs : FrameSet} {A : List AF} (hR : Rep fs A) (hm : 1 ≤ fs.maxFrames) :
    fs.frames.getLast? = if A.length = 0 then none else some (A.length - 1) := by
  rw [hR.frames, range'_getLast?]
  have : 1 ≤ fs.maxFrames.toNat := by omega
  split_ifs <;> first | rfl | omega | (congr 1; omega)

theorem createFrame_inv {fs fs' : FrameSet} {A : List AF} (hR : Rep fs A) (hm : 1 ≤ fs.maxFrames)
    {c : Ctx} {t : Tick} {ps : ℤ} {pe : Option ℤ} (h : fs.createFrame c t ps pe = .ok fs') :
    ∃ f, upsert fs.heap fs.heap.length t c.marketOpen fs.indicators
        (Frame.fresh t ps pe fs.frames.getLast?) = .ok f ∧
      (∀ i : ℕ, (fs'.heap[i]?).map Frame.bare = ((fs.heap ++ [f])[i]?).map Frame.bare) ∧
      fs' = { fs with heap := fs'.heap, frames := fs'.frames } ∧
      Rep fs' (A ++ [⟨ps, pe, [⟨t, c.marketOpen, fs.indicators⟩]⟩]) := by
  have hM : 1 ≤ fs.maxFrames.toNat := by omega
  have hMc : (fs.maxFrames.toNat : ℤ) = fs.maxFrames := Int.toNat_of_nonneg (by omega)
  have hlast := hR.getLast hm
  have hlen := hR.len
  have hfr := hR.frames
  unfold FrameSet.createFrame at h
  simp only [bind, Except.bind] at h
  split at h
  · cases h
  rename_i f hf
  refine ⟨f, hf, ?_⟩
  -- the heap after linking the previous frame
  have hfi := upsert_inds hf
  generalize hh1 : linkNext fs.heap fs.frames.getLast? fs.heap.length = heap1 at h
  have e1 : ∀ i : ℕ, heap1[i]? = (fs.heap[i]?).map
      (fun g => if i + 1 = A.length then { g with next := some A.length } else g) := by
    intro i
    rw [← hh1, hlast, hlen]
    unfold linkNext
    by_cases h0 : A.length = 0
    · simp only [if_pos h0]
      have : fs.heap[i]? = none := by rw [List.getElem?_eq_none]; omega
      rw [this]; rfl
    · simp only [if_neg h0, getElem?_modify']
      rcases hx : fs.heap[i]? with _ | g
      · rfl
      · simp only [Option.map_some]
        by_cases hi : A.length - 1 = i
        · rw [if_pos hi, if_pos (by omega)]
        · rw [if_neg hi, if_neg (by omega)]
  have e1len : heap1.length = A.length := by
    rw [← hh1, ← hlen]; unfold linkNext; split <;> simp
  -- the links of the frames already there, after the whole operation
  have fin : ∀ (heap2 : List Frame) (fr : List ℕ),
      cleanLoop fs.maxFrames (heap1 ++ [f]) (fs.frames ++ [fs.heap.length]) = .ok (heap2, fr) →
      fr = List.range' (A.length + 1 - fs.maxFrames.toNat)
          (A.length + 1 - (A.length + 1 - fs.maxFrames.toNat)) ∧
      heap2.length = A.length + 1 ∧
      ∀ i : ℕ, heap2[i]? = ((fs.heap ++ [f])[i]?).map (fun g => { g with
        prev := if A.length + 1 - fs.maxFrames.toNat < i then some (i - 1) else none,
        next := if A.length + 1 - fs.maxFrames.toNat ≤ i ∧ i + 1 < A.length + 1 then some (i + 1)
          else none }) := by
    intro heap2 fr hcl
    have cases_i : ∀ i : ℕ, (i < A.length ∧ ∃ g, fs.heap[i]? = some g ∧ (fs.heap ++ [f])[i]? = some g ∧
          (heap1 ++ [f])[i]? = some (if i + 1 = A.length then { g with next := some A.length } else g)) ∨
        (i = A.length ∧ (fs.heap ++ [f])[i]? = some f ∧ (heap1 ++ [f])[i]? = some f) ∨
        (A.length < i ∧ (fs.heap ++ [f])[i]? = none ∧ (heap1 ++ [f])[i]? = none) := by
      intro i
      rcases lt_trichotomy i A.length with hi | hi | hi
      · refine .inl ⟨hi, fs.heap[i]'(by omega), List.getElem?_eq_getElem _, ?_, ?_⟩
        · rw [List.getElem?_append_left (by omega), List.getElem?_eq_getElem]
        · rw [List.getElem?_append_left (by omega), e1, List.getElem?_eq_getElem (by omega)]; rfl
      · refine .inr (.inl ⟨hi, ?_, ?_⟩)
        · rw [List.getElem?_append_right (by omega), hi, hlen]; simp
        · rw [List.getElem?_append_right (by omega), hi, e1len]; simp
      · refine .inr (.inr ⟨hi, ?_, ?_⟩)
        · rw [List.getElem?_eq_none]; simp; omega
        · rw [List.getElem?_eq_none]; simp; omega
    have hfp : f.prev = if A.length = 0 then none else some (A.length - 1) := by
      rw [hfi, ← hlast]; rfl
    have hfn : f.next = none := by rw [hfi]; rfl
    rw [hfr, hlen] at hcl
    by_cases hc : A.length < fs.maxFrames.toNat
    · -- nothing is evicted
      have z0 : A.length - fs.maxFrames.toNat = 0 := by omega
      have z1 : A.length + 1 - fs.maxFrames.toNat = 0 := by omega
      rw [z0] at hcl
      rw [cleanLoop_keep (by simp; omega)] at hcl
      cases hcl
      refine ⟨?_, by simp [e1len], ?_⟩
      · rw [z1]
        simp only [Nat.sub_zero]
        rw [List.range'_concat]; simp
      · intro i
        rw [z1]
        rcases cases_i i with ⟨hi, g, hg, h2, h3⟩ | ⟨hi, h2, h3⟩ | ⟨hi, h2, h3⟩
        · rw [h2, h3, Option.map_some]
          have hp := hR.prev i g hg
          have hn := hR.next i g hg
          rw [z0] at hp hn
          congr 1
          by_cases hl : i + 1 = A.length
          · rw [if_pos hl, ← hp, if_pos (by omega), hl]
          · rw [if_neg hl, ← hp, if_pos (by omega)]
            rw [if_pos (by omega)] at hn
            rw [← hn]
        · rw [h2, h3, Option.map_some]
          congr 1
          rw [if_neg (c := _ ∧ _) (by omega)]
          refine relink_eq ?_ hfn
          rw [hfp]
          split_ifs <;> first | rfl | omega | (congr 1; omega)
        · rw [h2, h3]; rfl
    · -- one frame is evicted
      have z0 : A.length - fs.maxFrames.toNat + fs.maxFrames.toNat = A.length := by omega
      obtain ⟨lo, hlo⟩ : ∃ lo, lo = A.length - fs.maxFrames.toNat := ⟨_, rfl⟩
      obtain ⟨k, hk⟩ : ∃ k, fs.maxFrames.toNat = k + 1 := ⟨fs.maxFrames.toNat - 1, by omega⟩
      have z1 : A.length + 1 - fs.maxFrames.toNat = lo + 1 := by omega
      have hA : A.length = lo + k + 1 := by omega
      have elist : List.range' (A.length - fs.maxFrames.toNat)
          (A.length - (A.length - fs.maxFrames.toNat)) ++ [A.length] =
          lo :: (lo + 1) :: List.range' (lo + 2) k := by
        rw [← hlo, show A.length - lo = k + 1 by omega,
          show [A.length] = [lo + 1 * (k + 1)] by congr 1; omega, ← List.range'_concat,
          List.range'_succ, List.range'_succ]
      rw [elist, cleanLoop_one (by simp; omega)] at hcl
      cases hcl
      refine ⟨?_, by simp [e1len], ?_⟩
      · rw [z1, show A.length + 1 - (lo + 1) = k + 1 by omega, List.range'_succ]
      · intro i
        rw [z1, getElem?_modify', getElem?_modify']
        rcases cases_i i with ⟨hi, g, hg, h2, h3⟩ | ⟨hi, h2, h3⟩ | ⟨hi, h2, h3⟩
        · rw [h2, h3]
          have hp := hR.prev i g hg
          have hn := hR.next i g hg
          rw [← hlo] at hp hn
          simp only [Option.map_some]
          congr 1
          refine bare_ext (by split_ifs <;> rfl) ?_ ?_
          · split_ifs <;> first
              | rfl
              | omega
              | (simp only [hp]; split_ifs <;> first | rfl | omega)
          · split_ifs <;> first
              | rfl
              | omega
              | (simp only [hn]; split_ifs <;> first | rfl | omega)
              | (simp only; congr 1; omega)
        · rw [h2, h3]
          simp only [Option.map_some]
          congr 1
          rw [if_neg (by omega)] at hfp
          refine bare_ext (by split_ifs <;> rfl) ?_ ?_
          · split_ifs <;> first
              | rfl
              | omega
              | (simp only [hfp, hi])
          · split_ifs <;> first
              | rfl
              | omega
        · rw [h2, h3]; rfl
  rcases hcl : cleanLoop fs.maxFrames (heap1 ++ [f]) (fs.frames ++ [fs.heap.length]) with e | ⟨heap2, fr⟩
  · rw [hcl] at h; cases h
  rw [hcl] at h
  cases h
  obtain ⟨g1, g2, g3⟩ := fin _ _ hcl
  refine ⟨?_, rfl, ?_⟩
  · intro i
    rw [g3 i]
    rcases (fs.heap ++ [f])[i]? with _ | g <;> rfl
  · refine ⟨by simp [g2], by simpa using g1, ?_, ?_, ?_⟩
    · intro i a g ha hg
      simp only at hg
      rw [g3] at hg
      obtain ⟨g0, hg0, rfl⟩ := Option.map_eq_some_iff.mp hg
      refine Core.of_bare (f := g0) rfl ?_
      rcases lt_or_ge i A.length with hi | hi
      · rw [List.getElem?_append_left (by omega)] at hg0 ha
        exact hR.core i a g0 ha hg0
      · rw [List.getElem?_append_right (by omega)] at hg0 ha
        have hi' : i = A.length := by
          by_contra hne
          rw [List.getElem?_eq_none (by simp; omega)] at ha
          cases ha
        subst hi'
        simp only [hlen, Nat.sub_self, List.getElem?_cons_zero, Option.some.injEq] at hg0 ha
        subst hg0; subst ha
        rw [hfi]
        exact (core_fresh t ps pe _ c.marketOpen fs.indicators).of_inds
    · intro i g hg
      simp only at hg
      rw [g3] at hg
      obtain ⟨g0, hg0, rfl⟩ := Option.map_eq_some_iff.mp hg
      simp
    · intro i g hg
      simp only at hg
      rw [g3] at hg
      obtain ⟨g0, hg0, rfl⟩ := Option.map_eq_some_iff.mp hg
      simp

/-! ## A tick added to the current frame -/

theorem Rep.current {fs : FrameSet} {B : List AF} {a : AF} (hR : Rep fs (B ++ [a]))
    (hm : 1 ≤ fs.maxFrames) :
    ∃ f, fs.current = some (B.length, f) ∧ fs.heap[B.length]? = some f ∧ Core a f := by
  have hl := hR.getLast hm
  have hlen := hR.len
  simp only [List.length_append, List.length_cons, List.length_nil, zero_add, Nat.add_eq_zero_iff,
    one_ne_zero, and_false, if_false, Nat.add_sub_cancel] at hl hlen
  have hg : fs.heap[B.length]? = some (fs.heap[B.length]'(by omega)) := List.getElem?_eq_getElem _
  refine ⟨_, ?_, hg, hR.core B.length a _ (by simp) hg⟩
  unfold FrameSet.current
  rw [hl]
  simp only [hg, Option.map_some]

theorem Rep.current_none {fs : FrameSet} (hR : Rep fs []) : fs.current = none := by
  unfold FrameSet.current
  rw [hR.frames]; simp

/-- The current frame gets a tick, whatever happens to its indicators. -/
theorem Rep.track_last {fs : FrameSet} {B : List AF} {a : AF} (hR : Rep fs (B ++ [a])) {f f' : Frame} {t : Tick}
    (hg : fs.heap[B.length]? = some f) (hco : Core a f) (hi : f' = { f.track t with inds := f'.inds }) (mo : Bool)
    (reg : Dict Indicator) :
    Rep { fs with heap := fs.heap.set B.length f' } (B ++ [{ a with evs := a.evs ++ [⟨t, mo, reg⟩] }]) := by
  have hp : f'.prev = f.prev ∧ f'.next = f.next := by rw [hi, track_eq]; exact ⟨rfl, rfl⟩
  have hlen := hR.len
  have hlt : B.length < fs.heap.length := by rw [hlen]; simp
  have look : ∀ (i : ℕ) (g : Frame), (fs.heap.set B.length f')[i]? = some g →
      (i = B.length ∧ g = f') ∨ (i ≠ B.length ∧ fs.heap[i]? = some g) := by
    intro i g hgi
    by_cases e : i = B.length
    · subst e
      rw [List.getElem?_set_self hlt] at hgi
      exact .inl ⟨rfl, (Option.some.inj hgi).symm⟩
    · rw [List.getElem?_set_ne (Ne.symm e)] at hgi
      exact .inr ⟨e, hgi⟩
  refine ⟨by simp [hlen], by simpa using hR.frames, ?_, ?_, ?_⟩
  · intro i x g hx hgi
    rcases look i g hgi with ⟨rfl, rfl⟩ | ⟨hne, hgi⟩
    · rw [List.getElem?_append_right (by omega)] at hx
      simp only [Nat.sub_self, List.getElem?_cons_zero, Option.some.injEq] at hx
      subst hx
      rw [hi]
      exact (core_track hco t mo reg).of_inds
    · rcases lt_or_ge i B.length with hlt | hge
      · rw [List.getElem?_append_left hlt] at hx
        exact hR.core i x g (by rw [List.getElem?_append_left hlt]; exact hx) hgi
      · rw [List.getElem?_eq_none (by simp; omega)] at hx; cases hx
  · intro i g hgi
    have : ∃ g0, fs.heap[i]? = some g0 ∧ g.prev = g0.prev := by
      rcases look i g hgi with ⟨rfl, rfl⟩ | ⟨hne, hgi⟩
      · exact ⟨f, hg, hp.1⟩
      · exact ⟨g, hgi, rfl⟩
    obtain ⟨g0, h0, h1⟩ := this
    rw [h1]; simpa using hR.prev i g0 h0
  · intro i g hgi
    have : ∃ g0, fs.heap[i]? = some g0 ∧ g.next = g0.next := by
      rcases look i g hgi with ⟨rfl, rfl⟩ | ⟨hne, hgi⟩
      · exact ⟨f, hg, hp.2⟩
      · exact ⟨g, hgi, rfl⟩
    obtain ⟨g0, h0, h1⟩ := this
    rw [h1]; simpa using hR.next i g0 h0

theorem addToLast_inv {fs fs' : FrameSet} {B : List AF} {a : AF} (hR : Rep fs (B ++ [a]))
    (hm : 1 ≤ fs.maxFrames) {c : Ctx} {t : Tick} (h : fs.addToLast c t = .ok fs') :
    ∃ f f', fs.heap[B.length]? = some f ∧ Core a f ∧
      upsert fs.heap B.length t c.marketOpen fs.indicators (f.track t) = .ok f' ∧
      fs' = { fs with heap := fs.heap.set B.length f' } ∧
      Rep fs' (B ++ [{ a with evs := a.evs ++ [⟨t, c.marketOpen, fs.indicators⟩] }]) := by
  obtain ⟨f, hc, hg, hco⟩ := hR.current hm
  unfold FrameSet.addToLast at h
  rw [hc] at h
  simp only [bind, Except.bind] at h
  split at h
  · cases h
  rename_i f' hf'
  cases h
  exact ⟨f, f', hg, hco, hf', rfl, hR.track_last hg hco (upsert_inds hf') _ _⟩

/-! ## Construction sequences -/

/-- A frame set built by frame creations and additions to the current frame, with its abstract frames. -/
inductive Built (u : Unit') (q m : ℤ) : FrameSet → List AF → Prop
  | new : Built u q m ⟨u, q, m, [], [], []⟩ []
  | ind {fs A} (i : Indicator) : Built u q m fs A → Built u q m (fs.addIndicator i).1 A
  | create {fs fs' A} (c : Ctx) (t : Tick) (ps : ℤ) (pe : Option ℤ) : Built u q m fs A →
      fs.createFrame c t ps pe = .ok fs' →
      Built u q m fs' (A ++ [⟨ps, pe, [⟨t, c.marketOpen, fs.indicators⟩]⟩])
  | add {fs fs' B a} (c : Ctx) (t : Tick) : Built u q m fs (B ++ [a]) →
      fs.addToLast c t = .ok fs' →
      Built u q m fs' (B ++ [{ a with evs := a.evs ++ [⟨t, c.marketOpen, fs.indicators⟩] }])

theorem addIndicator_fields (fs : FrameSet) (i : Indicator) :
    (fs.addIndicator i).1 = { fs with indicators := (fs.addIndicator i).1.indicators } := by
  unfold FrameSet.addIndicator
  split <;> rfl

theorem createFrame_fields {fs fs' : FrameSet} {c : Ctx} {t : Tick} {ps : ℤ} {pe : Option ℤ}
    (h : fs.createFrame c t ps pe = .ok fs') : fs' = { fs with heap := fs'.heap, frames := fs'.frames } := by
  unfold FrameSet.createFrame at h
  simp only [bind, Except.bind] at h
  split at h
  · cases h
  split at h
  · cases h
  cases h; rfl

theorem addToLast_fields {fs fs' : FrameSet} {c : Ctx} {t : Tick}
    (h : fs.addToLast c t = .ok fs') : fs' = { fs with heap := fs'.heap } := by
  unfold FrameSet.addToLast at h
  split at h
  · cases h; rfl
  simp only [bind, Except.bind] at h
  split at h
  · cases h
  cases h; rfl

theorem Built.fields {u : Unit'} {q m : ℤ} {fs : FrameSet} {A : List AF} (h : Built u q m fs A) :
    fs.unit = u ∧ fs.qty = q ∧ fs.maxFrames = m := by
  induction h with
  | new => exact ⟨rfl, rfl, rfl⟩
  | ind i _ ih => rw [addIndicator_fields]; exact ih
  | create c t ps pe _ h ih => rw [createFrame_fields h]; exact ih
  | add c t _ h ih => rw [addToLast_fields h]; exact ih

theorem Rep.of_indicators {fs : FrameSet} {A : List AF} (h : Rep fs A) (x : Dict Indicator) :
    Rep { fs with indicators := x } A := ⟨h.len, h.frames, h.core, h.prev, h.next⟩

theorem Built.rep {u : Unit'} {q m : ℤ} {fs : FrameSet} {A : List AF} (h : Built u q m fs A)
    (hm : 1 ≤ m) : Rep fs A := by
  induction h with
  | new => exact ⟨rfl, by simp, by simp, by simp, by simp⟩
  | ind i _ ih => rw [addIndicator_fields]; exact ih.of_indicators _
  | create c t ps pe hB h ih =>
    obtain ⟨f, -, -, -, hR⟩ := createFrame_inv ih (by rw [hB.fields.2.2]; exact hm) h
    exact hR
  | add c t hB h ih =>
    obtain ⟨f, f', -, -, -, -, hR⟩ := addToLast_inv ih (by rw [hB.fields.2.2]; exact hm) h
    exact hR

end Estrade
