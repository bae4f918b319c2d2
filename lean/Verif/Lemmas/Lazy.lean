import Verif.Lazy
import Verif.Lemmas.Births
import Verif.Props.Results

/-!
# Generators of trades
-/

set_option linter.unusedSectionVars false
set_option autoImplicit false

namespace Estrade

section
variable [Arith]

/-- In `w` the list of the strategy begins with `own`, whose trades exist. -/
def Begins (s : ℕ) (own : List ℕ) (w : World) : Prop :=
  ∃ st, w.strategies[s]? = some st ∧ own <+: st.trades ∧ ∀ i ∈ own, i < w.trades.length

theorem scan_prefix (g : Gen) (w : World) {own l : List ℕ} (h : own <+: l) : ∀ n, n ≤ own.length → g.scan w l n = g.scan w own n := by
  intro n
  induction n with
  | zero => intro _; rfl
  | succ n ih =>
    intro hn
    unfold Gen.scan
    obtain ⟨m, rfl⟩ := h
    rw [List.getElem?_append_left (by omega), ih (by omega)]

/-- What one `next` does. -/
theorem scan_spec (g : Gen) (w : World) (own : List ℕ) (hex : ∀ i ∈ own, i < w.trades.length) : ∀ n, n ≤ own.length →
    (∃ i m t, g.scan w own n = .ok (some i, m) ∧ m < n ∧ own[m]? = some i ∧ w.trades[i]? = some t ∧
      Spec.selected g.epics g.openOnly t = true ∧ Spec.notBefore g.onlyAfter t = true ∧
      ∀ j i', m < j → j < n → own[j]? = some i' → ∃ t', w.trades[i']? = some t' ∧ Spec.selected g.epics g.openOnly t' = false) ∨
    (g.scan w own n = .ok (none, 0) ∧ ∀ j i', j < n → own[j]? = some i' →
      (∃ t', w.trades[i']? = some t' ∧ Spec.selected g.epics g.openOnly t' = false) ∨
      ∃ c i'' t', j ≤ c ∧ own[c]? = some i'' ∧ w.trades[i'']? = some t' ∧ Spec.selected g.epics g.openOnly t' = true ∧
        Spec.notBefore g.onlyAfter t' = false) := by
  intro n
  induction n with
  | zero => intro _; exact .inr ⟨rfl, fun j _ hj => absurd hj (by omega)⟩
  | succ n ih =>
    intro hn
    have hlt : n < own.length := by omega
    have h1 : own[n]? = some own[n] := List.getElem?_eq_getElem hlt
    have h2 := hex _ (List.getElem_mem hlt)
    have h3 : w.trades[own[n]]? = some w.trades[own[n]] := List.getElem?_eq_getElem h2
    generalize own[n] = i at *
    generalize w.trades[i] = t at *
    have hs : g.scan w own (n + 1) = if Spec.selected g.epics g.openOnly t = true then
        (if Spec.notBefore g.onlyAfter t = true then .ok (some i, n) else .ok (none, 0)) else g.scan w own n := by
      conv_lhs => unfold Gen.scan
      simp only [h1, h3, closed_not]
      change (if Spec.selected g.epics g.openOnly t = true then _ else _) = _
      by_cases hsel : Spec.selected g.epics g.openOnly t = true
      · rw [if_pos hsel, if_pos hsel]
        rcases g.onlyAfter with _ | d
        · rfl
        · unfold Spec.notBefore
          simp only
          by_cases hd : t.dt.lt d = true <;> simp [hd]
      · rw [if_neg hsel, if_neg hsel]
    rw [hs]
    by_cases hsel : Spec.selected g.epics g.openOnly t = true
    · rw [if_pos hsel]
      by_cases hb : Spec.notBefore g.onlyAfter t = true
      · rw [if_pos hb]
        exact .inl ⟨i, n, t, rfl, by omega, h1, h3, hsel, hb, fun j _ h h' => absurd h (by omega)⟩
      · rw [if_neg hb]
        refine .inr ⟨rfl, fun j i' hj _ => .inr ⟨n, i, t, by omega, h1, h3, hsel, by simpa using hb⟩⟩
    · rw [if_neg hsel]
      have hself : ∃ t', w.trades[i]? = some t' ∧ Spec.selected g.epics g.openOnly t' = false := ⟨t, h3, by simpa using hsel⟩
      rcases ih (by omega) with ⟨i2, m, t2, e1, e2, e3, e4, e5, e6, e7⟩ | ⟨e1, e2⟩
      · refine .inl ⟨i2, m, t2, e1, by omega, e3, e4, e5, e6, fun j i' hj hj' ho => ?_⟩
        by_cases hjn : j = n
        · subst hjn; rw [h1] at ho; injection ho with ho; subst ho; exact hself
        · exact e7 j i' hj (by omega) ho
      · refine .inr ⟨e1, fun j i' hj ho => ?_⟩
        by_cases hjn : j = n
        · subst hjn; rw [h1] at ho; injection ho with ho; subst ho; exact .inl hself
        · exact e2 j i' (by omega) ho

theorem next_left (g : Gen) (w : World) {own : List ℕ} {n : ℕ} (hw : Begins g.strategy own w) (hn : n ≤ own.length) (hl : g.left = some n) :
    g.next w = (g.scan w own n).map (fun r => (r.1, { g with left := some r.2 })) := by
  obtain ⟨st, h1, h2, -⟩ := hw
  unfold Gen.next
  rw [h1, hl]
  simp only [Option.getD_some]
  rw [scan_prefix g w h2 n hn]
  rcases g.scan w own n with e | r <;> rfl

theorem next_fresh (g : Gen) (w : World) {st : Strategy} (h : w.strategies[g.strategy]? = some st) (hl : g.left = none) :
    g.next w = ({ g with left := some st.trades.length } : Gen).next w := by
  unfold Gen.next
  simp only [h, hl, Option.getD_none, Option.getD_some]
  have : ∀ n, ({ g with left := some st.trades.length } : Gen).scan w st.trades n = g.scan w st.trades n := by
    intro n
    induction n with
    | zero => rfl
    | succ n ih => unfold Gen.scan; rw [ih]
  rw [this]

/-- What the answers to a series of `next` calls satisfy, when `n` entries of `own` are left at the beginning. -/
structure Answers (g : Gen) (own : List ℕ) (n : ℕ) (ws : List World) (as : List (Option ℕ)) : Prop where
  length : as.length = ws.length
  sub : (as.filterMap id).Sublist (own.take n).reverse
  sel : ∀ (k : ℕ) w i, ws[k]? = some w → as[k]? = some (some i) → ∃ t, w.trades[i]? = some t ∧
    Spec.selected g.epics g.openOnly t = true ∧ Spec.notBefore g.onlyAfter t = true
  stop : ∀ k k' : ℕ, as[k]? = some none → k ≤ k' → k' < as.length → as[k']? = some none
  all : ∀ k : ℕ, as[k]? = some none → ∀ (j : ℕ) i, j < n → own[j]? = some i → some i ∈ as.take k ∨
    (∃ (k' : ℕ) (w : World) (t : Trade), k' ≤ k ∧ ws[k']? = some w ∧ w.trades[i]? = some t ∧ Spec.selected g.epics g.openOnly t = false) ∨
    ∃ (k' : ℕ) (w : World) (c i' : ℕ) (t : Trade), k' ≤ k ∧ ws[k']? = some w ∧ j ≤ c ∧ own[c]? = some i' ∧ w.trades[i']? = some t ∧
      Spec.selected g.epics g.openOnly t = true ∧ Spec.notBefore g.onlyAfter t = false

theorem take_reverse_sublist (own : List ℕ) {m n : ℕ} {i : ℕ} (hmn : m < n) (hi : own[m]? = some i) :
    (i :: (own.take m).reverse).Sublist (own.take n).reverse := by
  have hlt : m < own.length := (List.getElem?_eq_some_iff.mp hi).1
  have : own.take (m + 1) = own.take m ++ [i] := by
    rw [List.take_add_one, hi]; rfl
  have h2 : (own.take (m + 1)).Sublist (own.take n) := (List.take_prefix_take_left (by omega)).sublist
  rw [this] at h2
  have := h2.reverse
  rwa [List.reverse_append, List.reverse_singleton, List.singleton_append] at this

theorem calls_spec (own : List ℕ) : ∀ (ws : List World) (g : Gen) (n : ℕ), n ≤ own.length → (∀ w ∈ ws, Begins g.strategy own w) →
    g.left = some n → ∃ as g', g.calls ws = .ok (as, g') ∧ Answers g own n ws as := by
  intro ws
  induction ws with
  | nil =>
    intro g n _ _ _
    exact ⟨[], g, rfl, rfl, by simp, by simp, by simp, by simp⟩
  | cons w ws ih =>
    intro g n hn hws hl
    have hw := hws w List.mem_cons_self
    obtain ⟨-, -, -, hex⟩ := id hw
    have hnext := next_left g w hw hn hl
    rcases scan_spec g w own hex n hn with ⟨i, m, t, e1, e2, e3, e4, e5, e6, e7⟩ | ⟨e1, e2⟩
    · rw [e1] at hnext
      obtain ⟨as, g', h1, h2⟩ := ih { g with left := some m } m (by omega) (fun x hx => hws x (List.mem_cons_of_mem _ hx)) rfl
      refine ⟨some i :: as, g', ?_, ?_, ?_, ?_, ?_, ?_⟩
      · unfold Gen.calls
        rw [hnext]
        show (do let rs ← ({ g with left := some m } : Gen).calls ws; _) = _
        rw [h1]; rfl
      · simp [h2.length]
      · rw [List.filterMap_cons_some (f := id) (a := some i) (b := i) rfl]
        exact ((List.cons_sublist_cons (a := i)).mpr h2.sub).trans (take_reverse_sublist own e2 e3)
      · intro k x i' hk ha
        rcases k with _ | k
        · simp only [List.getElem?_cons_zero, Option.some.injEq] at hk ha
          subst hk; subst ha
          exact ⟨t, e4, e5, e6⟩
        · simp only [List.getElem?_cons_succ] at hk ha
          exact h2.sel k x i' hk ha
      · intro k k' hk hkk hlt
        rcases k with _ | k
        · simp at hk
        · obtain ⟨k', rfl⟩ : ∃ m, k' = m + 1 := ⟨k' - 1, by omega⟩
          simp only [List.getElem?_cons_succ] at hk ⊢
          exact h2.stop k k' hk (by omega) (by simpa using hlt)
      · intro k hk j i' hj ho
        rcases k with _ | k
        · simp at hk
        · simp only [List.getElem?_cons_succ] at hk
          rw [List.take_succ_cons]
          rcases Nat.lt_trichotomy j m with hjm | rfl | hjm
          · rcases h2.all k hk j i' hjm ho with h | ⟨k', x, t', q1, q2, q3⟩ | ⟨k', x, c, i'', t', q1, q2, q3⟩
            · exact .inl (List.mem_cons_of_mem _ h)
            · exact .inr (.inl ⟨k' + 1, x, t', by omega, by simpa using q2, q3⟩)
            · exact .inr (.inr ⟨k' + 1, x, c, i'', t', by omega, by simpa using q2, q3⟩)
          · rw [e3] at ho; injection ho with ho; subst ho
            exact .inl List.mem_cons_self
          · obtain ⟨t', q1, q2⟩ := e7 j i' hjm hj ho
            exact .inr (.inl ⟨0, w, t', by omega, rfl, q1, q2⟩)
    · rw [e1] at hnext
      obtain ⟨as, g', h1, h2⟩ := ih { g with left := some 0 } 0 (by omega) (fun x hx => hws x (List.mem_cons_of_mem _ hx)) rfl
      have hnone : ∀ a ∈ as, a = none := by
        have := h2.sub
        simp only [List.take_zero, List.reverse_nil, List.sublist_nil] at this
        intro a ha
        rcases a with _ | i
        · rfl
        · have : i ∈ as.filterMap id := List.mem_filterMap.mpr ⟨some i, ha, rfl⟩
          rw [‹as.filterMap id = []›] at this
          cases this
      refine ⟨none :: as, g', ?_, ?_, ?_, ?_, ?_, ?_⟩
      · unfold Gen.calls
        rw [hnext]
        show (do let rs ← ({ g with left := some 0 } : Gen).calls ws; _) = _
        rw [h1]; rfl
      · simp [h2.length]
      · rw [List.filterMap_cons_none rfl]
        exact h2.sub.trans (by simp)
      · intro k x i' hk ha
        rcases k with _ | k
        · simp at ha
        · simp only [List.getElem?_cons_succ] at ha
          cases hnone _ (List.mem_of_getElem? ha)
      · intro k k' _ _ hlt
        rw [List.getElem?_eq_getElem hlt]
        rcases List.mem_cons.mp (List.getElem_mem hlt) with h | h
        · rw [h]
        · rw [hnone _ h]
      · intro k _ j i' hj ho
        rcases e2 j i' hj ho with ⟨t', q1, q2⟩ | ⟨c, i'', t', q⟩
        · exact .inr (.inl ⟨0, w, t', by omega, rfl, q1, q2⟩)
        · exact .inr (.inr ⟨0, w, c, i'', t', by omega, rfl, q⟩)

/-- A generator that has not been asked yet. -/
theorem calls_fresh (g : Gen) (w : World) (ws : List World) {st : Strategy} (h : w.strategies[g.strategy]? = some st) (hl : g.left = none) :
    g.calls (w :: ws) = ({ g with left := some st.trades.length } : Gen).calls (w :: ws) := by
  have := next_fresh g w h hl
  unfold Gen.calls
  rw [this]

end

end Estrade
