import Verif.Lemmas.Timed

/-!
# Frame sets in general, TICK frame sets, views
-/

set_option autoImplicit false
set_option linter.unusedSectionVars false

namespace Estrade

variable [Arith]

/-! ## Every frame set is built from creations and additions -/

theorem fillLoop_built {u : Unit'} {q m : ℤ} {c : Ctx} {ps : ℤ} (fuel : ℕ) :
    ∀ (fs fs' : FrameSet) (A : List AF), Built u q m fs A → fillLoop c ps fuel fs = .ok fs' →
    fs'.indicators = fs.indicators ∧ ∃ F, Built u q m fs' (A ++ F) := by
  induction fuel with
  | zero =>
    intro fs fs' A hB h
    rw [fillLoop] at h
    split at h
    · cases h; exact ⟨rfl, [], by simpa using hB⟩
    · split at h
      · cases h
      · split_ifs at h
        cases h; exact ⟨rfl, [], by simpa using hB⟩
  | succ fuel ih =>
    intro fs fs' A hB h
    rw [fillLoop] at h
    split at h
    · cases h; exact ⟨rfl, [], by simpa using hB⟩
    · split at h
      · cases h
      · split_ifs at h
        · simp only [bind, Except.bind] at h
          split at h
          · cases h
          · rename_i fs1 hcr
            obtain ⟨h1, F, h2⟩ := ih fs1 fs' _ (Built.create _ _ _ _ hB hcr) h
            refine ⟨by rw [h1, createFrame_fields hcr], _, by rw [← List.append_assoc]; exact h2⟩
        · cases h; exact ⟨rfl, [], by simpa using hB⟩

theorem Rep.nil_of_current {fs : FrameSet} {A : List AF} (hR : Rep fs A) (hm : 1 ≤ fs.maxFrames)
    (h : fs.current = none) : A = [] := by
  rcases List.eq_nil_or_concat A with rfl | ⟨B, a, rfl⟩
  · rfl
  · rw [List.concat_eq_append] at hR
    obtain ⟨f, hc, -⟩ := hR.current hm
    rw [hc] at h; cases h

/-- What one accepted tick does to the abstract frames, for every unit. -/
theorem step_built {u : Unit'} {q m : ℤ} (hm : 1 ≤ m) {fs fs' : FrameSet} {A : List AF} {c : Ctx}
    {t : Tick} (hB : Built u q m fs A) (h : fs.onNewTick c t = .ok fs') :
    (∃ F ps pe, Built u q m fs' (A ++ F ++ [⟨ps, pe, [⟨t, c.marketOpen, fs.indicators⟩]⟩]) ∧
      (u ≠ .tick → frameStart u q t.dt.wall = .ok ps ∧ pe = some (frameEnd c.zone u q ps))) ∨
    (∃ B a, A = B ++ [a] ∧
      Built u q m fs' (B ++ [{ a with evs := a.evs ++ [⟨t, c.marketOpen, fs.indicators⟩] }]) ∧
      (u ≠ .tick → ∃ pe, a.stop = some pe ∧ t.dt.wall < pe)) := by
  have hmf : 1 ≤ fs.maxFrames := by rw [hB.fields.2.2]; exact hm
  unfold FrameSet.onNewTick at h
  split_ifs at h with h1 h2
  · left
    refine ⟨[], _, _, by simpa using Built.create c t _ _ hB h, fun hu => absurd (hB.fields.1 ▸ h1) hu⟩
  · right
    rcases List.eq_nil_or_concat A with rfl | ⟨B, a, rfl⟩
    · exfalso
      apply h2
      unfold FrameSet.overTick
      rw [(hB.rep hm).current_none]
    · rw [List.concat_eq_append] at hB ⊢
      exact ⟨B, a, rfl, Built.add c t hB h, fun hu => absurd (hB.fields.1 ▸ h1) hu⟩
  · simp only [bind, Except.bind] at h
    split at h
    · cases h
    · rename_i b hb
      cases b with
      | true =>
        left
        simp only [if_true] at h
        unfold FrameSet.createTimed at h
        simp only [bind, Except.bind] at h
        split at h
        · cases h
        · rename_i ps hps
          split at h
          · cases h
          · rename_i fs1 hfl
            obtain ⟨e1, F, hB1⟩ := fillLoop_built _ _ _ _ hB hfl
            have hcr := Built.create c t _ _ hB1 h
            rw [e1] at hcr
            refine ⟨F, _, _, hcr, fun _ => ?_⟩
            rw [hB.fields.1, hB.fields.2.1] at *
            exact ⟨hps, rfl⟩
      | false =>
        right
        simp only [Bool.false_eq_true, if_false] at h
        rcases List.eq_nil_or_concat A with rfl | ⟨B, a, rfl⟩
        · unfold FrameSet.overTimed at hb
          rw [(hB.rep hm).current_none] at hb
          cases hb
        · rw [List.concat_eq_append] at hB ⊢
          refine ⟨B, a, rfl, Built.add c t hB h, fun _ => ?_⟩
          obtain ⟨f, hc, hg, hco⟩ := (hB.rep hm).current hmf
          unfold FrameSet.overTimed at hb
          rw [hc] at hb
          simp only at hb
          rcases hpe : f.periodEnd with _ | pe
          · rw [hpe] at hb; cases hb
          · rw [hpe] at hb
            simp only [Except.ok.injEq, decide_eq_false_iff_not, not_le] at hb
            exact ⟨pe, by rw [← hco.stop, hpe], hb⟩

theorem feeds_built {u : Unit'} {q m : ℤ} (hm : 1 ≤ m) {fs : FrameSet} {h : List HEv}
    (hF : Feeds u q m fs h) : ∃ A, Built u q m fs A ∧ (h = [] ↔ A = []) := by
  induction hF with
  | new => exact ⟨[], Built.new, by simp⟩
  | ind i _ ih => obtain ⟨A, hB, hA⟩ := ih; exact ⟨A, Built.ind i hB, hA⟩
  | tick c t _ hok ih =>
    obtain ⟨A, hB, hA⟩ := ih
    rcases step_built hm hB hok with ⟨F, ps, pe, h, -⟩ | ⟨B, a, -, h, -⟩
    · exact ⟨_, h, by simp⟩
    · exact ⟨_, h, by simp⟩

/-! ## Views -/

theorem filterMap_range'_drop {α : Type} (l : List α) (lo k : ℕ) (h : lo + k = l.length) :
    (List.range' lo k).filterMap (fun i => l[i]?) = l.drop lo := by
  induction k generalizing lo with
  | zero => rw [List.drop_eq_nil_of_le (by omega)]; rfl
  | succ k ih =>
    rw [List.range'_succ, List.filterMap_cons, List.getElem?_eq_getElem (by omega), ih (lo + 1) (by omega)]
    exact (List.drop_eq_getElem_cons (by omega)).symm

theorem Rep.view {fs : FrameSet} {A : List AF} (hR : Rep fs A) :
    fs.view = fs.heap.drop (A.length - fs.maxFrames.toNat) := by
  unfold FrameSet.view
  rw [hR.frames]
  apply filterMap_range'_drop
  rw [hR.len]; omega

theorem Rep.view_get {fs : FrameSet} {A : List AF} (hR : Rep fs A) (j : ℕ) :
    fs.view[j]? = fs.heap[A.length - fs.maxFrames.toNat + j]? := by
  rw [hR.view, List.getElem?_drop]

theorem Rep.view_length {fs : FrameSet} {A : List AF} (hR : Rep fs A) :
    fs.view.length = min A.length fs.maxFrames.toNat := by
  rw [hR.view, List.length_drop, hR.len]; omega

theorem Rep.view_last {fs : FrameSet} {B : List AF} {a : AF} (hR : Rep fs (B ++ [a]))
    (hm : 1 ≤ fs.maxFrames) : ∃ f, fs.view.getLast? = some f ∧ Core a f ∧ fs.heap[B.length]? = some f := by
  obtain ⟨f, -, hg, hco⟩ := hR.current hm
  refine ⟨f, ?_, hco, hg⟩
  have hl := hR.len
  simp only [List.length_append, List.length_cons, List.length_nil, zero_add] at hl
  rw [List.getLast?_eq_getElem?, hR.view_get, hR.view_length]
  have : (B ++ [a]).length - fs.maxFrames.toNat + (min (B ++ [a]).length fs.maxFrames.toNat - 1) = B.length := by
    simp only [List.length_append, List.length_cons, List.length_nil, zero_add]; omega
  rw [this, hg]

/-- Abstract frame of the frame at position `j` of the view. -/
theorem Rep.view_core {fs : FrameSet} {A : List AF} (hR : Rep fs A) {j : ℕ} {f : Frame}
    (h : fs.view[j]? = some f) :
    ∃ a, A[A.length - fs.maxFrames.toNat + j]? = some a ∧ Core a f := by
  rw [hR.view_get] at h
  have hlt : A.length - fs.maxFrames.toNat + j < A.length := by
    have := (List.getElem?_eq_some_iff.mp h).1
    rwa [hR.len] at this
  exact ⟨A[A.length - fs.maxFrames.toNat + j], List.getElem?_eq_getElem hlt,
    hR.core _ _ _ (List.getElem?_eq_getElem hlt) h⟩

/-! ## TICK frame sets -/

/-- The `j`-th block of `n` events. -/
def block (n : ℕ) (h : List HEv) (j : ℕ) : List HEv := (h.drop (j * n)).take n

def blockAF (l : List HEv) : AF := ⟨(l.head?.map HEv.wall).getD 0, none, l.map HEv.ev⟩

def tickAF (n : ℕ) (h : List HEv) : List AF :=
  (List.range ((h.length + n - 1) / n)).map (fun j => blockAF (block n h j))

theorem block_snoc_before {n : ℕ} {h : List HEv} {x : HEv} {j : ℕ} (hj : (j + 1) * n ≤ h.length) :
    block n (h ++ [x]) j = block n h j := by
  unfold block
  have : (j + 1) * n = j * n + n := by ring
  rw [List.drop_append_of_le_length (by omega), List.take_append_of_le_length (by simp; omega)]

theorem tickAF_snoc {n : ℕ} (hn : 1 ≤ n) {h : List HEv} {x : HEv} :
    (n ∣ h.length ∧ tickAF n (h ++ [x]) = tickAF n h ++ [⟨x.wall, none, [x.ev]⟩] ∧
      (∀ B a, tickAF n h = B ++ [a] → a.evs.length = n)) ∨
    (∃ B a, tickAF n h = B ++ [a] ∧ a.evs.length < n ∧
      tickAF n (h ++ [x]) = B ++ [{ a with evs := a.evs ++ [x.ev] }]) := by
  obtain ⟨k, r, hkr, hr⟩ : ∃ k r, h.length = k * n + r ∧ r < n :=
    ⟨h.length / n, h.length % n, by rw [mul_comm]; exact (Nat.div_add_mod _ _).symm,
      Nat.mod_lt _ (by omega)⟩
  have hpre : (List.range k).map (fun j => blockAF (block n (h ++ [x]) j)) =
      (List.range k).map (fun j => blockAF (block n h j)) := by
    apply List.map_congr_left
    intro j hj
    have hj := List.mem_range.mp hj
    rw [block_snoc_before]
    have : (j + 1) * n ≤ k * n := Nat.mul_le_mul_right n hj
    omega
  rcases Nat.eq_zero_or_pos r with rfl | hpos
  · left
    have c1 : (h.length + n - 1) / n = k := by
      rw [hkr]; apply Nat.div_eq_of_lt_le <;> nlinarith [Nat.sub_add_cancel (show 1 ≤ k * n + 0 + n by omega)]
    have c2 : ((h ++ [x]).length + n - 1) / n = k + 1 := by
      rw [List.length_append, hkr]; simp only [List.length_cons, List.length_nil, zero_add]
      rw [show k * n + 0 + 1 + n - 1 = k * n + n by omega]
      apply Nat.div_eq_of_lt_le <;> nlinarith
    refine ⟨⟨k, by rw [hkr]; ring⟩, ?_, ?_⟩
    · unfold tickAF
      rw [c1, c2, List.range_succ, List.map_append, hpre]
      congr 1
      simp only [List.map_cons, List.map_nil]
      have : block n (h ++ [x]) k = [x] := by
        unfold block
        rw [List.drop_append_of_le_length (by omega), List.drop_eq_nil_of_le (by omega)]
        simp only [List.nil_append]
        exact List.take_of_length_le (by simpa using hn)
      rw [this]; rfl
    · intro B a e
      unfold tickAF at e
      rw [c1] at e
      cases k with
      | zero => simp at e
      | succ k =>
        rw [List.range_succ, List.map_append] at e
        have := (List.append_inj' e rfl).2
        simp only [List.map_cons, List.map_nil, List.cons.injEq, and_true] at this
        rw [← this]
        simp only [blockAF, block, List.length_map, List.length_take, List.length_drop, hkr]
        have : (k + 1) * n = k * n + n := by ring
        omega
  · right
    have c1 : (h.length + n - 1) / n = k + 1 := by
      rw [hkr]
      have : k * n + r + n - 1 = k * n + (r + n - 1) := by omega
      rw [this]
      apply Nat.div_eq_of_lt_le
      · have : (k + 1) * n = k * n + n := by ring
        omega
      · have : (k + 1 + 1) * n = k * n + n + n := by ring
        omega
    have c2 : ((h ++ [x]).length + n - 1) / n = k + 1 := by
      rw [List.length_append, hkr]; simp only [List.length_cons, List.length_nil, zero_add]
      apply Nat.div_eq_of_lt_le
      · have : (k + 1) * n = k * n + n := by ring
        omega
      · have : (k + 1 + 1) * n = k * n + n + n := by ring
        omega
    refine ⟨(List.range k).map (fun j => blockAF (block n h j)), blockAF (block n h k), ?_, ?_, ?_⟩
    · unfold tickAF
      rw [c1, List.range_succ, List.map_append]; rfl
    · simp only [blockAF, block, List.length_map, List.length_take, List.length_drop, hkr]
      omega
    · unfold tickAF
      rw [c2, List.range_succ, List.map_append, hpre]
      congr 1
      simp only [List.map_cons, List.map_nil]
      have e1 : block n h k = h.drop (k * n) := by
        unfold block
        exact List.take_of_length_le (by simp; omega)
      have e2 : block n (h ++ [x]) k = block n h k ++ [x] := by
        rw [e1]
        unfold block
        rw [List.drop_append_of_le_length (by omega)]
        exact List.take_of_length_le (by simp; omega)
      have e3 : (block n h k).head? ≠ none := by
        rw [e1]
        intro hh
        have := List.head?_eq_none_iff.mp hh
        have := congrArg List.length this
        simp at this; omega
      rw [e2]
      unfold blockAF
      simp only [List.head?_append, List.map_append, List.map_cons, List.map_nil]
      rcases hh : (block n h k).head? with _ | y
      · exact absurd hh e3
      · simp

/-- Deliveries by an epic, which has already stored the tick as its last one (epic.py:250-253). -/
def Attached (h : List HEv) : Prop := ∀ e ∈ h, ∃ b, e.ctx.epic = some (b, ordOf e.wall)

theorem feeds_tick {q m : ℤ} (hq : 1 ≤ q) (hm : 1 ≤ m) {fs : FrameSet} {h : List HEv}
    (hF : Feeds .tick q m fs h) (ha : Attached h) : Built .tick q m fs (tickAF q.toNat h) := by
  induction hF with
  | new =>
    have : tickAF q.toNat [] = [] := by
      unfold tickAF
      rw [List.length_nil, zero_add, Nat.div_eq_of_lt (by omega)]; rfl
    rw [this]; exact Built.new
  | ind i _ ih => exact Built.ind i (ih ha)
  | @tick fs fs' h c t hF hok ih =>
    have hB := ih (fun e he => ha e (by simp [he]))
    obtain ⟨b, hb⟩ := ha _ (List.mem_append_right _ (List.mem_singleton.mpr rfl))
    have hb : c.epic = some (b, ordOf t.dt.wall) := hb
    have hmf : 1 ≤ fs.maxFrames := by rw [hB.fields.2.2]; exact hm
    unfold FrameSet.onNewTick at hok
    rw [if_pos hB.fields.1] at hok
    rcases tickAF_snoc (n := q.toNat) (by omega) (h := h) (x := ⟨c, t, fs.indicators⟩) with
      ⟨-, e, hlen⟩ | ⟨B, a, e1, hlen, e2⟩
    · rw [e]
      have hover : fs.overTick c t = true := by
        unfold FrameSet.overTick
        rcases hcur : fs.current with _ | ⟨i, f⟩
        · rfl
        · simp only [Bool.or_eq_true, decide_eq_true_eq]
          left
          rcases List.eq_nil_or_concat (tickAF q.toNat h) with e0 | ⟨B, a, e0⟩
          · rw [e0] at hB
            rw [(hB.rep hm).current_none] at hcur; cases hcur
          · rw [List.concat_eq_append] at e0
            have hl := hlen B a e0
            rw [e0] at hB
            obtain ⟨f', hc, -, hco⟩ := (hB.rep hm).current hmf
            rw [hcur] at hc
            cases hc
            rw [hco.count, hl, hB.fields.2.1]
            omega
      rw [hover, if_pos rfl] at hok
      exact Built.create c t _ _ hB hok
    · rw [e1] at hB
      obtain ⟨f, hc, -, hco⟩ := (hB.rep hm).current hmf
      have hover : fs.overTick c t = false := by
        unfold FrameSet.overTick
        rw [hc]
        simp only [hb, lt_irrefl, decide_false, Bool.or_false, decide_eq_false_iff_not, not_le]
        rw [hco.count, hB.fields.2.1]
        omega
      rw [hover] at hok
      rw [e2]
      exact Built.add c t hB hok

end Estrade
