import Verif.Lemmas.SameFrames
import Verif.Lemmas.Windows
import Verif.Lemmas.Running
import Verif.Lemmas.Range

/-!
# Well configured indicators never raise
-/

set_option autoImplicit false
set_option linter.unusedSectionVars false
set_option linter.style.haveILetI false

namespace Estrade

section
variable [Arith]

/-! ## Arithmetic of the RSI -/

theorem buildSums_spec (l : List ℚ) : ∀ a b : ℚ, 0 ≤ a → b ≤ 0 →
    0 ≤ (l.foldl (fun s v => if 0 ≤ v then (fadd s.1 v, s.2) else (s.1, fadd s.2 v)) (a, b)).1 ∧
    (l.foldl (fun s v => if 0 ≤ v then (fadd s.1 v, s.2) else (s.1, fadd s.2 v)) (a, b)).2 ≤ 0 := by
  induction l with
  | nil => intro a b ha hb; exact ⟨ha, hb⟩
  | cons v l ih =>
    intro a b ha hb
    rw [List.foldl_cons]
    split_ifs with h
    · exact ih _ _ (fadd_nonneg ha h) hb
    · refine ih _ _ ha ?_
      unfold fadd
      have := fl_mono (x := b + v) (y := 0) (by linarith [not_le.mp h])
      rwa [fl_zero] at this

theorem buildSums_sign (l : List ℚ) : 0 ≤ (buildSums l).1 ∧ (buildSums l).2 ≤ 0 :=
  buildSums_spec l 0 0 le_rfl le_rfl

theorem pyDiv_ok {x y z : ℚ} (h : pyDiv x y = .ok z) : y ≠ 0 ∧ z = fdiv x y := by
  unfold pyDiv at h
  split_ifs at h with hy
  cases h
  exact ⟨hy, rfl⟩

/-- The RSI is computed as soon as the mean loss is not rounded to zero. -/
theorem buildRsi_ok {n : ℤ} (hn : 0 < n) {l : List ℚ} (h0 : (buildSums l).2 ≠ 0 → fdiv (buildSums l).2 n ≠ 0) :
    ∃ x, buildRsi n l = .ok x := by
  obtain ⟨h1, -⟩ := buildSums_sign l
  have hn' : (0 : ℚ) < n := by exact_mod_cast hn
  unfold buildRsi
  simp only
  split_ifs with hs1 hs2
  · exact ⟨_, rfl⟩
  · exact ⟨_, rfl⟩
  · have hne : |fdiv (buildSums l).2 n| ≠ 0 := abs_ne_zero.mpr (h0 hs1)
    have hrs : 0 ≤ fdiv (fdiv (buildSums l).1 n) |fdiv (buildSums l).2 n| := by
      have : 0 ≤ fdiv (buildSums l).1 n := fl_nonneg (by positivity)
      exact fl_nonneg (by positivity)
    have hd : fadd 1 (fdiv (fdiv (buildSums l).1 n) |fdiv (buildSums l).2 n|) ≠ 0 := by
      have := fl_mono (x := 1) (y := 1 + fdiv (fdiv (buildSums l).1 n) |fdiv (buildSums l).2 n|) (by linarith)
      have e : fl (1 : ℚ) = 1 := by have := fl_int (n := 1) (by norm_num); simpa using this
      rw [e] at this
      unfold fadd
      linarith
    have e1 : pyDiv (buildSums l).1 (n : ℚ) = .ok (fdiv (buildSums l).1 n) := by unfold pyDiv; rw [if_neg hn'.ne']
    have e2 : pyDiv (buildSums l).2 (n : ℚ) = .ok (fdiv (buildSums l).2 n) := by unfold pyDiv; rw [if_neg hn'.ne']
    have e3 : pyDiv (fdiv (buildSums l).1 n) |fdiv (buildSums l).2 n| =
        .ok (fdiv (fdiv (buildSums l).1 n) |fdiv (buildSums l).2 n|) := by
      unfold pyDiv; rw [if_neg hne]
    simp only [bind, Except.bind, e1, e2, e3]
    unfold pyDiv
    rw [if_neg hd]
    exact ⟨_, rfl⟩

/-- A change between two tick values. -/
def IsChange (c : ℚ) : Prop := ∃ x y : ℚ, c = fsub (rnd x) (rnd y)

/-- For windows `n` with `P n` the RSI of changes between tick values can be computed. -/
def RsiTotal (P : ℤ → Prop) : Prop :=
  ∀ (n : ℤ) (l : List ℚ), 0 < n → P n → (∀ c ∈ l, IsChange c) → ∃ x, buildRsi n l = .ok x

theorem rsiTotal_exact (hE : Exact) : RsiTotal fun _ => True := by
  intro n l hn _ _
  refine buildRsi_ok hn fun h => ?_
  rw [fdiv_exact hE]
  exact div_ne_zero h (by exact_mod_cast hn.ne')

/-- Distinct tick values are not arbitrarily close. -/
def Gap : Prop := ∀ x y : ℚ, rnd x < rnd y → 1 / 2 ^ 60 ≤ rnd y - rnd x

theorem IsChange.neg_le (hA : Accurate) (hG : Gap) {c : ℚ} (hc : IsChange c) (h : c < 0) : c ≤ - (1 / 2 ^ 61) := by
  obtain ⟨x, y, rfl⟩ := hc
  have hxy : rnd x < rnd y := by
    by_contra h'
    exact absurd (fsub_nonneg (not_lt.mp h')) (not_le.mpr h)
  have h1 := hG x y hxy
  have h2 := fl_mono (x := 1 / 2 ^ 60) (y := rnd y - rnd x) h1
  have h3 := (abs_le.mp (hA (1 / 2 ^ 60))).1
  rw [abs_of_pos (by positivity)] at h3
  rw [fsub_neg_swap]
  unfold fsub
  have h4 : (1 : ℚ) / 2 ^ 61 ≤ 1 / 2 ^ 60 - (1 / 2 ^ 60 / 2 ^ 53 + 1 / 2 ^ 200) := by norm_num
  linarith

theorem IsChange.float {c : ℚ} (hc : IsChange c) : fl c = c := by
  obtain ⟨x, y, rfl⟩ := hc
  exact fl_idem _

theorem buildSums_snd_le {δ : ℚ} (l : List ℚ) (hl : ∀ c ∈ l, fl c = c ∧ (c < 0 → c ≤ -δ)) :
    (buildSums l).2 = 0 ∨ (buildSums l).2 ≤ -δ := by
  unfold buildSums
  suffices ∀ a b : ℚ, b ≤ 0 → (b = 0 ∨ b ≤ -δ) →
      (l.foldl (fun s v => if 0 ≤ v then (fadd s.1 v, s.2) else (s.1, fadd s.2 v)) (a, b)).2 = 0 ∨
      (l.foldl (fun s v => if 0 ≤ v then (fadd s.1 v, s.2) else (s.1, fadd s.2 v)) (a, b)).2 ≤ -δ from
    this 0 0 le_rfl (.inl rfl)
  induction l with
  | nil => intro a b _ h; exact h
  | cons v l ih =>
    intro a b hb h
    have ih := ih fun c hc => hl c (List.mem_cons_of_mem _ hc)
    rw [List.foldl_cons]
    split_ifs with hv
    · exact ih _ _ hb h
    · obtain ⟨h1, h2⟩ := hl v List.mem_cons_self
      have h3 := h2 (not_le.mp hv)
      have h4 : fadd b v ≤ v := by
        have := fl_mono (x := b + v) (y := v) (by linarith)
        rwa [h1] at this
      exact ih _ _ (by linarith [not_le.mp hv]) (.inr (by linarith))

/-- In floats: windows of at most 2^100 changes. -/
theorem rsiTotal_accurate (hA : Accurate) (hG : Gap) : RsiTotal fun n => n ≤ 2 ^ 100 := by
  intro n l hn hN hl
  refine buildRsi_ok hn fun h0 => ?_
  have hn0 : (0 : ℚ) < n := by exact_mod_cast hn
  have hN0 : (n : ℚ) ≤ 2 ^ 100 := by exact_mod_cast hN
  have hs := (buildSums_snd_le l fun c hc => ⟨(hl c hc).float, fun h => (hl c hc).neg_le hA hG h⟩).resolve_left h0
  have h1 : (1 : ℚ) / 2 ^ 161 ≤ -((buildSums l).2 / n) := by
    rw [← neg_div, le_div_iff₀ hn0]
    calc (1 : ℚ) / 2 ^ 161 * n ≤ 1 / 2 ^ 161 * 2 ^ 100 := by gcongr
      _ = 1 / 2 ^ 61 := by norm_num
      _ ≤ _ := by linarith
  have h2 := (abs_le.mp (hA (-((buildSums l).2 / n)))).1
  rw [abs_of_pos (lt_of_lt_of_le (by positivity) h1), fl_neg] at h2
  unfold fdiv
  intro h3
  rw [h3] at h2
  have h4 : (1 : ℚ) / 2 ^ 200 < 1 / 2 ^ 161 / 2 := by norm_num
  linarith

theorem updateRsi_ok {P : ℤ → Prop} (hK : RsiTotal P) {n : ℤ} (hP : P n) {heap : List Frame} {f : Frame} {v : IndVal}
    (hv : ∀ c ∈ extendedChanges heap v f, IsChange c) : ∃ v', updateRsi heap f n v = .ok v' := by
  unfold updateRsi
  simp only
  split_ifs with h
  · obtain ⟨x, hx⟩ := hK n (extendedChanges heap v f) (by omega) hP hv
    simp only [bind, Except.bind, hx]
    exact ⟨_, rfl⟩
  · exact ⟨_, rfl⟩

theorem extendedChanges_change {heap : List Frame} {f : Frame} {v : IndVal} (hv : ∀ c ∈ v.changes, IsChange c) :
    ∀ c ∈ extendedChanges heap v f, IsChange c := by
  intro c hc
  unfold extendedChanges at hc
  split at hc
  · cases hc
  · split at hc
    · cases hc
    · rcases List.mem_append.mp hc with hc | hc
      · exact hv c hc
      · rw [List.mem_singleton.mp hc]; exact ⟨_, _, rfl⟩

theorem updateRsi_keeps {heap : List Frame} {f : Frame} {n : ℤ} {v v' : IndVal} (h : updateRsi heap f n v = .ok v') :
    v'.changes = v.changes ∧ v'.ind = v.ind := by
  unfold updateRsi at h
  simp only at h
  split_ifs at h
  · simp only [bind, Except.bind] at h
    split at h
    · cases h
    · cases h; exact ⟨rfl, rfl⟩
  · cases h; exact ⟨rfl, rfl⟩

theorem sliceFrom_mem {α : Type} {l : List α} {k : ℤ} {x : α} (h : x ∈ sliceFrom l k) : x ∈ l := by
  unfold sliceFrom at h
  split_ifs at h <;> exact List.mem_of_mem_drop h

/-! ## Invariants of stored values -/

/-- A property established by the constructors and kept by `on_new_tick` holds for every stored value. -/
theorem Built.val_inv {u : Unit'} {q m : ℤ} {fs : FrameSet} {A : List AF} (hB : Built u q m fs A) (hm : 1 ≤ m)
    (P : IndVal → Prop)
    (hnew : ∀ heap, (∀ f ∈ heap, ∀ r v, Frame.get f r = some v → P v) →
      ∀ ind id f v, IndVal.new heap ind id f = .ok v → P v)
    (htick : ∀ heap f v v' t mo, P v → v.onNewTick heap f t mo = .ok v' → P v') :
    ∀ f ∈ fs.heap, ∀ (r : String) (v : IndVal), f.get r = some v → P v := by
  have step : ∀ {heap : List Frame} {id : ℕ} {t : Tick} {mo : Bool} {reg : Dict Indicator} {f f' : Frame},
      (∀ f ∈ heap, ∀ r v, Frame.get f r = some v → P v) → RegOk reg → upsert heap id t mo reg f = .ok f' → (∀ r v, f.get r = some v → P v) →
      ∀ r v, f'.get r = some v → P v := by
    intro heap id t mo reg f f' hh hreg hu hf r v hv
    obtain ⟨h1, h2⟩ := hreg.upsert_get r hu
    rcases hg : reg.get? r with _ | ind
    · rw [h1 hg] at hv; exact hf r v hv
    · have hs := h2 ind hg
      rcases hw : f.get r with _ | w
      · rw [hw, hv] at hs
        have hs : ind.build heap id f mo = .ok (some v) := hs
        unfold Indicator.build at hs
        split_ifs at hs
        · simp only [bind, Except.bind] at hs
          split at hs
          · cases hs
          · rename_i x hx
            cases hs
            exact hnew _ hh _ _ _ _ hx
        · cases hs
      · rw [hw, hv] at hs
        obtain ⟨v', g1, g2⟩ := hs
        cases g2
        exact htick _ _ _ _ _ _ (hf r w hw) g1
  induction hB with
  | new => intro f hf; cases hf
  | ind i _ ih => rw [addIndicator_fields]; exact ih
  | create c t ps pe hB h ih =>
    obtain ⟨g, hu, hb, -, -⟩ := createFrame_inv (hB.rep hm) (by rw [hB.fields.2.2]; exact hm) h
    intro f hf r v hv
    obtain ⟨i, hi⟩ := List.mem_iff_getElem?.mp hf
    have hbi := hb i
    rw [hi] at hbi
    obtain ⟨f0, hf0, hbare⟩ := Option.map_eq_some_iff.mp hbi.symm
    rw [get_of_bare hbare.symm] at hv
    rcases snoc_cases hf0 with ⟨-, h0⟩ | ⟨-, rfl⟩
    · exact ih f0 (List.mem_of_getElem? h0) r v hv
    · exact step ih hB.regOk hu (fun r v hv => by cases hv) r v hv
  | add c t hB h ih =>
    rename_i fs fs' B x
    have hR := hB.rep hm
    obtain ⟨f0, f1, h0, -, hu, hfs, -⟩ := addToLast_inv hR (by rw [hB.fields.2.2]; exact hm) h
    intro f hf r v hv
    rw [hfs] at hf
    rcases List.mem_or_eq_of_mem_set hf with hx | rfl
    · exact ih f hx r v hv
    · refine step ih hB.regOk hu ?_ r v hv
      intro r v hv
      rw [track_eq] at hv
      exact ih f0 (List.mem_of_getElem? h0) r v hv

theorem track_changes (v : IndVal) (t : Tick) (mo : Bool) :
    (v.track t mo).changes = v.changes ∧ (v.track t mo).ind = v.ind := by
  unfold IndVal.track
  simp only
  split_ifs <;> exact ⟨rfl, rfl⟩

theorem onNewTick_keeps {heap : List Frame} {f : Frame} {v v' : IndVal} {t : Tick} {mo : Bool}
    (h : v.onNewTick heap f t mo = .ok v') : v'.changes = v.changes ∧ v'.ind = v.ind := by
  unfold IndVal.onNewTick at h
  simp only at h
  have hT := track_changes v t mo
  split at h
  · have hU := updateRsi_keeps h
    exact ⟨hU.1.trans hT.1, hU.2.trans hT.2⟩
  · cases h; exact hT

theorem prevValue_mem {heap : List Frame} {r : String} {fuel : ℕ} : ∀ {o : Option ℕ} {v : IndVal},
    prevValue heap r fuel o = some v → ∃ (j : ℕ) (f : Frame), heap[j]? = some f ∧ f.get r = some v := by
  induction fuel with
  | zero => intro o v h; cases h
  | succ n ih =>
    intro o v h
    rcases o with _ | i
    · cases h
    rw [prevValue] at h
    split at h
    · cases h
    · rename_i f hf
      split at h
      · rename_i w hw
        cases h
        exact ⟨i, f, hf, hw⟩
      · exact ih h

theorem new_changes {heap : List Frame} (hh : ∀ f ∈ heap, ∀ r v, Frame.get f r = some v → ∀ c ∈ v.changes, IsChange c)
    {ind : Indicator} {id : ℕ} {f : Frame} {v : IndVal} (hv : IndVal.new heap ind id f = .ok v) :
    ∀ c ∈ v.changes, IsChange c := by
  rcases hk : ind.kind with _ | _ | _ | _ | _ | mp | ⟨p, _ | n⟩
  case sma =>
    rw [IndVal.new_sma hk] at hv
    split at hv
    · cases hv
    · cases hv; intro c hc; cases hc
  case rsi.none => unfold IndVal.new at hv; rw [hk] at hv; cases hv
  case rsi.some =>
    by_cases hn : n = 0
    · unfold IndVal.new at hv; rw [hk] at hv; simp [hn] at hv
    · rw [IndVal.new_rsi hk hn] at hv
      split at hv
      · cases hv
      · rename_i lc hlc
        rw [(updateRsi_keeps hv).1]
        intro c hc
        have hc : c ∈ lc := sliceFrom_mem hc
        rcases hp : prevValue heap ind.ref heap.length f.prev with _ | p
        · rw [hp] at hlc; cases hlc; cases hc
        · rw [hp] at hlc
          obtain ⟨j, g, hg, hget⟩ := prevValue_mem hp
          have hpc := hh g (List.mem_of_getElem? hg) _ p hget
          simp only [inherited, prevChanges] at hlc
          split at hlc
          · split at hlc
            · cases hlc
            · cases hlc; exact extendedChanges_change hpc c hc
          · cases hlc
  all_goals (unfold IndVal.new at hv; rw [hk] at hv; cases hv; intro c hc; cases hc)

theorem Built.changes {u : Unit'} {q m : ℤ} {fs : FrameSet} {A : List AF} (hB : Built u q m fs A) (hm : 1 ≤ m) :
    ∀ f ∈ fs.heap, ∀ (r : String) (v : IndVal), f.get r = some v → ∀ c ∈ v.changes, IsChange c :=
  hB.val_inv hm (fun v => ∀ c ∈ v.changes, IsChange c) (fun _ hh _ _ _ _ hv => new_changes hh hv)
    (fun _ _ _ _ _ _ hP hv => by rw [(onNewTick_keeps hv).1]; exact hP)

/-! ## Indicators registered throughout -/

/-- Kinds whose values can be built: an RSI needs a non-zero window. -/
def Kind.Safe : Kind → Prop
  | .rsi _ none => False
  | .rsi _ (some n) => n ≠ 0
  | _ => True

/-- The indicators `D` are registered, and were during every delivery. -/
structure Const (fs : FrameSet) (A : List AF) (D : Dict Indicator) : Prop where
  now : fs.indicators = D
  then_ : ∀ a ∈ A, ∀ e ∈ a.evs, e.reg = D
  safe : ∀ p ∈ D, p.2.kind.Safe

theorem scan_ind {r : String} {ind : Indicator} {D : Dict Indicator} {evs : List Ev} (h : ∀ e ∈ evs, e.reg = D)
    (hr : D.get? r = some ind) {x : Indicator × List Tick} (hx : scan r evs = some x) : x.1 = ind := by
  rw [scan_const (ind := ind) (fun e he => by rw [h e he, hr])] at hx
  split_ifs at hx
  cases hx; rfl

theorem value_const {u : Unit'} {q m : ℤ} {fs : FrameSet} {A : List AF} {D : Dict Indicator}
    (hB : Built u q m fs A) (hm : 1 ≤ m) (hC : Const fs A D) {r : String} {ind : Indicator}
    (hr : D.get? r = some ind) {j : ℕ} {f : Frame} (hf : fs.heap[j]? = some f) {v : IndVal} (hv : f.get r = some v) :
    v.ind = ind ∧ v.frame = j := by
  have hR := hB.rep hm
  have hlt : j < A.length := by rw [← hR.len]; exact (List.getElem?_eq_some_iff.mp hf).1
  have ha : A[j]? = some A[j] := List.getElem?_eq_getElem hlt
  have h1 := hB.indRep hm r j _ f ha hf
  rcases hs : scan r A[j].evs with _ | ⟨i, ts⟩
  · rw [hs, hv] at h1; cases h1
  · rw [hs, hv] at h1
    obtain ⟨w, e1, e2, e3, -⟩ := h1
    cases e1
    have := scan_ind (hC.then_ _ (List.getElem_mem hlt)) hr hs
    exact ⟨e2.trans this, e3⟩

/-- The windows of RSI indicators satisfy `P`. -/
def Kind.Window (P : ℤ → Prop) : Kind → Prop
  | .rsi _ (some n) => P n
  | _ => True

/-- What the values of a frame must satisfy for the next tick to be accepted. -/
def Sane (P : ℤ → Prop) (f : Frame) : Prop :=
  ∀ (r : String) (v : IndVal), f.get r = some v → (∀ c ∈ v.changes, IsChange c) ∧ v.ind.kind.Window P

theorem sane_heap {P : ℤ → Prop} {u : Unit'} {q m : ℤ} {fs : FrameSet} {A : List AF} {D : Dict Indicator}
    (hB : Built u q m fs A) (hm : 1 ≤ m) (hC : Const fs A D) (hW : ∀ d ∈ D, d.2.kind.Window P) :
    ∀ f ∈ fs.heap, Sane P f := by
  intro f hf r v hv
  refine ⟨hB.changes hm f hf r v hv, ?_⟩
  obtain ⟨j, hj⟩ := List.mem_iff_getElem?.mp hf
  rcases hr : D.get? r with _ | ind
  · have hR := hB.rep hm
    have hlt : j < A.length := by rw [← hR.len]; exact (List.getElem?_eq_some_iff.mp hj).1
    have h1 := hB.indRep hm r j _ f (List.getElem?_eq_getElem hlt) hj
    have hs : scan r A[j].evs = none :=
      scan_unregistered (fun e he => by rw [hC.then_ _ (List.getElem_mem hlt) e he, hr])
    rw [hs, hv] at h1
    cases h1
  · rw [(value_const hB hm hC hr hj hv).1]
    exact hW (r, ind) (Dict.mem_of_get? hr)

theorem new_ind {heap : List Frame} {ind : Indicator} {id : ℕ} {f : Frame} {v : IndVal}
    (hv : IndVal.new heap ind id f = .ok v) : v.ind = ind := by
  rcases hk : ind.kind with _ | _ | _ | _ | _ | mp | ⟨p, _ | n⟩
  case sma =>
    rw [IndVal.new_sma hk] at hv
    split at hv
    · cases hv
    · cases hv; rfl
  case rsi.none => unfold IndVal.new at hv; rw [hk] at hv; cases hv
  case rsi.some =>
    by_cases hn : n = 0
    · unfold IndVal.new at hv; rw [hk] at hv; simp [hn] at hv
    · rw [IndVal.new_rsi hk hn] at hv
      split at hv
      · cases hv
      · rw [(updateRsi_keeps hv).2]; rfl
  all_goals (unfold IndVal.new at hv; rw [hk] at hv; cases hv; rfl)

theorem build_const {P : ℤ → Prop} (hK : RsiTotal P) {u : Unit'} {q m : ℤ} {fs : FrameSet} {A : List AF}
    {D : Dict Indicator} (hB : Built u q m fs A) (hm : 1 ≤ m) (hC : Const fs A D)
    (hW : ∀ d ∈ D, d.2.kind.Window P) {r : String} {ind : Indicator}
    (hr : D.get? r = some ind) (id : ℕ) (f : Frame) (mo : Bool) : ∃ o, ind.build fs.heap id f mo = .ok o := by
  have hreg : RegOk D := hC.now ▸ hB.regOk
  have href := hreg.2 r ind hr
  have hsafe := hC.safe (r, ind) (Dict.mem_of_get? hr)
  have hwin := hW (r, ind) (Dict.mem_of_get? hr)
  simp only at hsafe hwin
  suffices ∃ v, IndVal.new fs.heap ind id f = .ok v by
    obtain ⟨v, hv⟩ := this
    unfold Indicator.build
    split_ifs
    · simp only [bind, Except.bind, hv]; exact ⟨_, rfl⟩
    · exact ⟨_, rfl⟩
  have hprev : ∀ p, prevValue fs.heap ind.ref fs.heap.length f.prev = some p →
      p.ind = ind ∧ (∀ c ∈ p.changes, IsChange c) ∧ ∃ g, fs.heap[p.frame]? = some g := by
    intro p hp
    rw [href] at hp
    obtain ⟨j, g, hg, hv⟩ := prevValue_mem hp
    obtain ⟨h1, h2⟩ := value_const hB hm hC hr hg hv
    exact ⟨h1, hB.changes hm g (List.mem_of_getElem? hg) r p hv, g, by rw [h2]; exact hg⟩
  rcases hk : ind.kind with _ | _ | _ | _ | _ | mp | ⟨p, _ | n⟩
  case sma =>
    rw [IndVal.new_sma hk]
    rcases hp : prevValue fs.heap ind.ref fs.heap.length f.prev with _ | p
    · exact ⟨_, rfl⟩
    · obtain ⟨h1, -, g, h2⟩ := hprev p hp
      simp only [inherited, prevCloses, h1, hk, h2]
      exact ⟨_, rfl⟩
  case rsi.none => rw [hk] at hsafe; exact hsafe.elim
  case rsi.some =>
    have hn : n ≠ 0 := by rw [hk] at hsafe; exact hsafe
    have hPn : P n := by rw [hk] at hwin; exact hwin
    rw [IndVal.new_rsi hk hn]
    rcases hp : prevValue fs.heap ind.ref fs.heap.length f.prev with _ | p
    · exact updateRsi_ok hK hPn (extendedChanges_change fun c hc => by cases sliceFrom_mem hc)
    · obtain ⟨h1, h3, g, h2⟩ := hprev p hp
      simp only [inherited, prevChanges, h1, hk, h2]
      exact updateRsi_ok hK hPn
        (extendedChanges_change fun c hc => extendedChanges_change h3 c (sliceFrom_mem hc))
  all_goals (unfold IndVal.new; rw [hk]; exact ⟨_, rfl⟩)

theorem onNewTick_ok {P : ℤ → Prop} (hK : RsiTotal P) {heap : List Frame} {f : Frame} {v : IndVal}
    (hc : ∀ c ∈ v.changes, IsChange c) (hw : v.ind.kind.Window P) (t : Tick) (mo : Bool) :
    ∃ v', v.onNewTick heap f t mo = .ok v' := by
  unfold IndVal.onNewTick
  simp only
  split
  · rename_i n hk
    rw [hk] at hw
    exact updateRsi_ok hK hw (extendedChanges_change (by rw [(track_changes v t mo).1]; exact hc))
  · exact ⟨_, rfl⟩

theorem Sane.set {P : ℤ → Prop} {f : Frame} (hf : Sane P f) {r : String} {o : Option IndVal}
    (ho : ∀ v, o = some v → (∀ c ∈ v.changes, IsChange c) ∧ v.ind.kind.Window P) :
    Sane P { f with inds := f.inds.set r o } := by
  intro r' v hv
  unfold Frame.get at hv
  simp only at hv
  rw [Dict.get?_set] at hv
  split_ifs at hv
  · exact ho v hv
  · exact hf r' v hv

theorem upsert_const {P : ℤ → Prop} (hK : RsiTotal P) {u : Unit'} {q m : ℤ} {fs : FrameSet} {A : List AF}
    {D : Dict Indicator} (hB : Built u q m fs A) (hm : 1 ≤ m) (hC : Const fs A D)
    (hW : ∀ d ∈ D, d.2.kind.Window P) (id : ℕ) (t : Tick) (mo : Bool) (f : Frame) (hf : Sane P f) :
    ∃ f', upsert fs.heap id t mo fs.indicators f = .ok f' := by
  rw [hC.now]
  have hreg : RegOk D := hC.now ▸ hB.regOk
  have hheap : ∀ g ∈ fs.heap, ∀ r v, Frame.get g r = some v → ∀ c ∈ v.changes, IsChange c := hB.changes hm
  have hone : ∀ p ∈ D, ∀ f, Sane P f → ∃ f', upsertOne fs.heap id t mo f p = .ok f' ∧ Sane P f' := by
    intro p hp f hf
    unfold upsertOne
    split
    · rename_i v hv
      obtain ⟨h1, h2⟩ := hf _ v hv
      obtain ⟨v', hv'⟩ := onNewTick_ok hK (heap := fs.heap) (f := f) h1 h2 t mo
      obtain ⟨e1, e2⟩ := onNewTick_keeps hv'
      simp only [bind, Except.bind, hv']
      refine ⟨_, rfl, hf.set ?_⟩
      intro w hw
      cases hw
      rw [e1, e2]
      exact ⟨h1, h2⟩
    · obtain ⟨o, ho⟩ := build_const hK hB hm hC hW (Dict.get?_of_mem hreg.1 hp) id f mo
      simp only [bind, Except.bind, ho]
      refine ⟨_, rfl, hf.set ?_⟩
      intro w hw
      subst hw
      unfold Indicator.build at ho
      split_ifs at ho
      · simp only [bind, Except.bind] at ho
        split at ho
        · cases ho
        · rename_i x hx
          cases ho
          refine ⟨new_changes hheap hx, ?_⟩
          rw [new_ind hx]
          exact hW p hp
      · cases ho
  unfold upsert
  clear hC hreg
  induction D generalizing f with
  | nil => exact ⟨_, rfl⟩
  | cons p rest ih =>
    obtain ⟨g, hg, hg'⟩ := hone p List.mem_cons_self f hf
    rw [List.foldlM_cons]
    simp only [bind, Except.bind, hg]
    exact ih (fun d hd => hW d (List.mem_cons_of_mem _ hd)) g hg' (fun p hp => hone p (List.mem_cons_of_mem _ hp))

theorem Const.create {fs fs' : FrameSet} {A : List AF} {D : Dict Indicator}
    (hC : Const fs A D) {c : Ctx} {t : Tick} {ps : ℤ} {pe : Option ℤ} (h : fs.createFrame c t ps pe = .ok fs') :
    Const fs' (A ++ [⟨ps, pe, [⟨t, c.marketOpen, fs.indicators⟩]⟩]) D := by
  refine ⟨by rw [createFrame_fields h]; exact hC.now, ?_, hC.safe⟩
  intro a ha e he
  rcases List.mem_append.mp ha with ha | ha
  · exact hC.then_ a ha e he
  · rw [List.mem_singleton.mp ha] at he
    rw [List.mem_singleton.mp he]
    exact hC.now

theorem FrameSet.current_mem {fs : FrameSet} {i : ℕ} {f : Frame} (h : fs.current = some (i, f)) : f ∈ fs.heap := by
  unfold FrameSet.current at h
  split at h
  · cases h
  · obtain ⟨g, hg, hx⟩ := Option.map_eq_some_iff.mp h
    cases hx
    exact List.mem_of_getElem? hg

theorem create_const {P : ℤ → Prop} (hK : RsiTotal P) {u : Unit'} {q m : ℤ} {fs : FrameSet} {A : List AF} {D : Dict Indicator}
    (hB : Built u q m fs A) (hm : 1 ≤ m) (hC : Const fs A D) (hW : ∀ d ∈ D, d.2.kind.Window P) (c : Ctx) (t : Tick) (ps : ℤ) (pe : Option ℤ) :
    ∃ fs', fs.createFrame c t ps pe = .ok fs' := by
  obtain ⟨f, hf⟩ := upsert_const hK hB hm hC hW fs.heap.length t c.marketOpen
    (Frame.fresh t ps pe fs.frames.getLast?) (fun r v hv => by cases hv)
  exact createFrame_ok (by rw [hB.fields.2.2]; exact hm) hf

theorem add_const {P : ℤ → Prop} (hK : RsiTotal P) {u : Unit'} {q m : ℤ} {fs : FrameSet} {A : List AF} {D : Dict Indicator}
    (hB : Built u q m fs A) (hm : 1 ≤ m) (hC : Const fs A D) (hW : ∀ d ∈ D, d.2.kind.Window P) (c : Ctx) (t : Tick) :
    ∃ fs', fs.addToLast c t = .ok fs' := by
  unfold FrameSet.addToLast
  split
  · exact ⟨_, rfl⟩
  · rename_i i f hcur
    have hs : Sane P (f.track t) := by
      intro r v hv
      rw [track_eq] at hv
      exact sane_heap hB hm hC hW f (FrameSet.current_mem hcur) r v hv
    obtain ⟨f', hf⟩ := upsert_const hK hB hm hC hW i t c.marketOpen (f.track t) hs
    simp only [bind, Except.bind, hf]
    exact ⟨_, rfl⟩

/-- Every frame has an end (sets of timed frames). -/
def Ended (fs : FrameSet) : Prop := ∀ f ∈ fs.heap, f.periodEnd.isSome

theorem Ended.create {u : Unit'} {q m : ℤ} (hm : 1 ≤ m) {fs fs' : FrameSet} {A : List AF} (hB : Built u q m fs A)
    (hE : Ended fs) {c : Ctx} {t : Tick} {ps pe : ℤ} (h : fs.createFrame c t ps (some pe) = .ok fs') : Ended fs' := by
  obtain ⟨g, hu, hb, -, -⟩ := createFrame_inv (hB.rep hm) (by rw [hB.fields.2.2]; exact hm) h
  intro f hf
  obtain ⟨i, hi⟩ := List.mem_iff_getElem?.mp hf
  have hbi := hb i
  rw [hi] at hbi
  obtain ⟨f0, hf0, hbare⟩ := Option.map_eq_some_iff.mp hbi.symm
  rw [show f.periodEnd = f0.periodEnd from (congrArg Frame.periodEnd hbare.symm :)]
  rcases snoc_cases hf0 with ⟨-, h0⟩ | ⟨-, rfl⟩
  · exact hE _ (List.mem_of_getElem? h0)
  · rw [upsert_inds hu]; rfl

theorem Ended.add {fs fs' : FrameSet} (hE : Ended fs) {c : Ctx} {t : Tick} (h : fs.addToLast c t = .ok fs') :
    Ended fs' := by
  unfold FrameSet.addToLast at h
  split at h
  · cases h; exact hE
  · rename_i i f hc
    simp only [bind, Except.bind] at h
    split at h
    · cases h
    rename_i g hg
    cases h
    intro x hx
    rcases List.mem_or_eq_of_mem_set hx with hx | rfl
    · exact hE x hx
    · rw [upsert_inds hg, track_eq]
      exact hE f (FrameSet.current_mem hc)

theorem Ended.fill {u : Unit'} {q m : ℤ} (hm : 1 ≤ m) {c : Ctx} {ps : ℤ} (fuel : ℕ) :
    ∀ (fs fs' : FrameSet) (A : List AF), Built u q m fs A → Ended fs → fillLoop c ps fuel fs = .ok fs' →
    Ended fs' := by
  induction fuel with
  | zero =>
    intro fs fs' A hB hE h
    rw [fillLoop] at h
    split at h
    · cases h; exact hE
    · split at h
      · cases h
      · split_ifs at h
        cases h; exact hE
  | succ n ih =>
    intro fs fs' A hB hE h
    rw [fillLoop] at h
    split at h
    · cases h; exact hE
    · split at h
      · cases h
      · split_ifs at h
        · simp only [bind, Except.bind] at h
          split at h
          · cases h
          · rename_i fs1 h1
            exact ih fs1 fs' _ (Built.create _ _ _ _ hB h1) (hE.create hm hB h1) h
        · cases h; exact hE

theorem feeds_ended {u : Unit'} {q m : ℤ} (hm : 1 ≤ m) (hu : u ≠ .tick) {fs : FrameSet} {h : List HEv}
    (hF : Feeds u q m fs h) : Ended fs := by
  induction hF with
  | new => intro f hf; cases hf
  | ind i _ ih => rw [addIndicator_fields]; exact ih
  | tick c t hF h ih =>
    obtain ⟨A, hB, -⟩ := feeds_built hm hF
    unfold FrameSet.onNewTick at h
    rw [hB.fields.1, if_neg hu] at h
    simp only [bind, Except.bind] at h
    split at h
    · cases h
    · split_ifs at h
      · unfold FrameSet.createTimed at h
        simp only [bind, Except.bind] at h
        split at h
        · cases h
        split at h
        · cases h
        rename_i fs1 h1
        obtain ⟨-, F, k, x, hB1, -, -⟩ := fillLoop_groups hm _ _ _ A hB h1
        exact (ih.fill hm _ _ _ A hB h1).create hm hB1 h
      · exact ih.add h

/-- With well configured indicators the gap filling loop can only fail by not ending. -/
theorem fill_const {P : ℤ → Prop} (hK : RsiTotal P) {u : Unit'} {q m : ℤ} (hm : 1 ≤ m) {c : Ctx} {ps : ℤ} {D : Dict Indicator}
    (hW : ∀ d ∈ D, d.2.kind.Window P) (fuel : ℕ) : ∀ (fs : FrameSet) (A : List AF), Built u q m fs A → Const fs A D → Ended fs →
    fillLoop c ps fuel fs = .error .diverge ∨
    ∃ fs' B, fillLoop c ps fuel fs = .ok fs' ∧ Built u q m fs' B ∧ Const fs' B D := by
  induction fuel with
  | zero =>
    intro fs A hB hC hN
    rw [fillLoop]
    rcases hc : fs.current with _ | ⟨i, f⟩
    · exact .inr ⟨fs, A, rfl, hB, hC⟩
    · simp only
      have := hN f (FrameSet.current_mem hc)
      rcases hp : f.periodEnd with _ | pe
      · rw [hp] at this; cases this
      · simp only
        split_ifs
        · exact .inl rfl
        · exact .inr ⟨fs, A, rfl, hB, hC⟩
  | succ n ih =>
    intro fs A hB hC hN
    rw [fillLoop]
    rcases hc : fs.current with _ | ⟨i, f⟩
    · exact .inr ⟨fs, A, rfl, hB, hC⟩
    · simp only
      have := hN f (FrameSet.current_mem hc)
      rcases hp : f.periodEnd with _ | pe
      · rw [hp] at this; cases this
      · simp only
        split_ifs
        · obtain ⟨fs1, h1⟩ := create_const hK hB hm hC hW c f.last pe (some (frameEnd c.zone fs.unit fs.qty pe))
          simp only [bind, Except.bind, h1]
          exact ih fs1 _ (Built.create _ _ _ _ hB h1) (Const.create hC h1) (hN.create hm hB h1)
        · exact .inr ⟨fs, A, rfl, hB, hC⟩

theorem calm_tick {P : ℤ → Prop} (hK : RsiTotal P) {q m : ℤ} (hm : 1 ≤ m) {D : Dict Indicator} {fs : FrameSet} {A : List AF}
    (hB : Built .tick q m fs A) (hC : Const fs A D) (hW : ∀ d ∈ D, d.2.kind.Window P) (c : Ctx) (t : Tick) : ∃ fs', fs.onNewTick c t = .ok fs' := by
  unfold FrameSet.onNewTick
  rw [hB.fields.1, if_pos rfl]
  split_ifs
  · exact create_const hK hB hm hC hW c t _ _
  · exact add_const hK hB hm hC hW c t

theorem calm_timed {P : ℤ → Prop} (hK : RsiTotal P) {u : Unit'} {q m : ℤ} (hu : u ≠ .tick) (hq : 0 < q) (hm : 1 ≤ m)
    {D : Dict Indicator} {fs : FrameSet} {A : List AF}
    (hB : Built u q m fs A) (hC : Const fs A D) (hW : ∀ d ∈ D, d.2.kind.Window P) (hN : Ended fs) (c : Ctx) (hz : ∀ x, x ≤ c.zone.resolve x) (t : Tick)
    {ps : ℤ} (hps : frameStart u q t.dt.wall = .ok ps) : ∃ fs', fs.onNewTick c t = .ok fs' := by
  have hnd := onNewTick_terminates hm hu hq hz (t := t) hB
  unfold FrameSet.onNewTick at hnd ⊢
  rw [hB.fields.1, if_neg hu] at hnd ⊢
  have hov : ∃ b, fs.overTimed t = .ok b := by
    unfold FrameSet.overTimed
    rcases hc : fs.current with _ | ⟨i, f⟩
    · exact ⟨_, rfl⟩
    · simp only
      have := hN f (FrameSet.current_mem hc)
      rcases hp : f.periodEnd with _ | pe
      · rw [hp] at this; cases this
      · exact ⟨_, rfl⟩
  obtain ⟨b, hb⟩ := hov
  simp only [bind, Except.bind, hb] at hnd ⊢
  cases b with
  | false =>
    simp only [Bool.false_eq_true, if_false]
    exact add_const hK hB hm hC hW c t
  | true =>
    simp only [if_true] at hnd ⊢
    unfold FrameSet.createTimed at hnd ⊢
    rw [hB.fields.1, hB.fields.2.1, hps] at hnd ⊢
    simp only [bind, Except.bind] at hnd ⊢
    rcases fill_const hK hm (c := c) (ps := ps) hW (fillFuel fs ps) fs A hB hC hN with h | ⟨fs', B, h1, h2, h3⟩
    · rw [h] at hnd; exact absurd rfl hnd
    · rw [h1]
      exact create_const hK h2 hm h3 hW c t ps _

end

/-! ## The gap between tick values -/

theorem gap_exact : @Gap Arith.exact := by
  letI := Arith.exact
  intro x y h
  rw [rnd_exact exact_exact, rnd_exact exact_exact] at *
  unfold cent at *
  have h1 : ((rhe (x * 100) : ℤ) : ℚ) < (rhe (y * 100) : ℤ) := by linarith
  have h2 : rhe (x * 100) + 1 ≤ rhe (y * 100) := by exact_mod_cast h1
  have h3 : ((rhe (x * 100) : ℤ) : ℚ) + 1 ≤ (rhe (y * 100) : ℤ) := by exact_mod_cast h2
  have h4 : (1 : ℚ) / 2 ^ 60 ≤ 1 / 100 := by norm_num
  linarith

/-- In binary64 tick values are multiples of 2^-60. -/
theorem rnd64_grain (x : ℚ) : ∃ k : ℤ, @rnd Arith.binary64 x = k / 2 ^ 60 := by
  change ∃ k : ℤ, fl64 (cent x) = k / 2 ^ 60
  by_cases h0 : rhe (x * 100) = 0
  · refine ⟨0, ?_⟩
    unfold cent fl64
    rw [h0]
    simp [rhe]
  · have hc : (1 : ℚ) / 2 ^ 7 ≤ |cent x| := by
      unfold cent
      rw [abs_div, abs_of_pos (by norm_num : (0 : ℚ) < 100)]
      have : (1 : ℤ) ≤ |rhe (x * 100)| := Int.one_le_abs h0
      have : (1 : ℚ) ≤ |(rhe (x * 100) : ℚ)| := by exact_mod_cast this
      rw [le_div_iff₀ (by norm_num)]
      linarith
    have he : -60 ≤ ulpExp (cent x) := by
      by_contra hlt
      have h1 := abs_lt_ulp (cent x)
      have h2 : (2 : ℚ) ^ ulpExp (cent x) ≤ 2 ^ (-60 : ℤ) := zpow_le_zpow_right₀ (by norm_num) (by omega)
      have h3 : (2 : ℚ) ^ (-60 : ℤ) = 1 / 2 ^ 60 := by rw [zpow_neg, one_div]; rfl
      rw [h3] at h2
      have h4 : (2 : ℚ) ^ 53 * (1 / 2 ^ 60) = 1 / 2 ^ 7 := by norm_num
      linarith
    refine ⟨rhe (cent x / 2 ^ ulpExp (cent x)) * 2 ^ (ulpExp (cent x) + 60).toNat, ?_⟩
    unfold fl64
    push_cast
    rw [mul_div_assoc]
    congr 1
    rw [eq_div_iff (by positivity), ← zpow_natCast (2 : ℚ) (ulpExp (cent x) + 60).toNat, ← zpow_natCast (2 : ℚ) 60,
      ← zpow_add₀ (by norm_num)]
    congr 1
    push_cast
    omega

theorem gap_binary64 : @Gap Arith.binary64 := by
  intro x y h
  obtain ⟨a, ha⟩ := rnd64_grain x
  obtain ⟨b, hb⟩ := rnd64_grain y
  rw [ha, hb] at h ⊢
  have h1 : (a : ℚ) < b := by
    rwa [div_lt_div_iff_of_pos_right (by positivity)] at h
  have h2 : a + 1 ≤ b := by exact_mod_cast h1
  have h3 : (a : ℚ) + 1 ≤ b := by exact_mod_cast h2
  rw [← sub_div]
  apply div_le_div_of_nonneg_right _ (by positivity)
  linarith

end Estrade
