import Verif.Lemmas.Fills
import Verif.Props.Trades

/-!
# On which quotes trades were opened, and in which order
-/

set_option linter.unusedSectionVars false
set_option autoImplicit false

namespace Estrade

/-- Spec: the quotes an epic has shown: the placeholder, then the accepted ticks. -/
def Spec.quotes (e : ℕ) (log : List Event) : List Tick := Tick.epoch :: Spec.acceptedOn e log

section
variable [Arith]

theorem quotes_last {ep : Epic} {A : List Tick} (h : EpicInv ep A) : (Tick.epoch :: A).getLast? = some ep.lastTick := by
  rcases List.eq_nil_or_concat' A with rfl | ⟨B, x, rfl⟩
  · rw [(h.empty rfl).1]; rfl
  · have h1 := (h.last x (by simp)).1
    rw [h1, ← List.cons_append, List.getLast?_append]; rfl

theorem quotes_note (e : ℕ) (L : List Event) (s e' : ℕ) (cb : Cb) :
    Spec.quotes e (L ++ [.notify s e' cb]) = Spec.quotes e L := by
  unfold Spec.quotes
  rw [acceptedOn_append, acceptedOn_notify e [.notify s e' cb] (fun ev hev => ⟨s, e', cb, by simpa using hev⟩),
    List.append_nil]

theorem quotes_accept (e e' : ℕ) (L : List Event) (k : Tick) :
    Spec.quotes e' (L ++ [.accepted e k]) = Spec.quotes e' L ++ if e = e' then [k] else [] := by
  unfold Spec.quotes
  rw [acceptedOn_append, List.cons_append]
  congr 2
  unfold Spec.acceptedOn
  by_cases he : e = e'
  · simp [he]
  · simp [he]

/-- The last quote shown is the last tick of the epic. -/
def LastShown (E : List Epic) (L : List Event) : Prop :=
  ∀ (e : ℕ) ep, E[e]? = some ep → (Spec.quotes e L).getLast? = some ep.lastTick

theorem LastShown.init {w : World} (h : w.Init) : LastShown w.epics w.log := by
  intro e ep hep; exact quotes_last (Init.epicInv h e ep hep)

theorem LastShown.note {E : List Epic} {L : List Event} (h : LastShown E L) (s e : ℕ) (cb : Cb) :
    LastShown E (L ++ [.notify s e cb]) := by
  intro e' ep hep; rw [quotes_note]; exact h e' ep hep

theorem LastShown.accept {E : List Epic} {L : List Event} (h : LastShown E L) {e : ℕ} {ep : Epic} (hep : E[e]? = some ep)
    (k : Tick) : LastShown (E.set e (ep.accept k).1) (L ++ [.accepted e k]) := by
  intro e' ep' hep'
  rw [quotes_accept]
  rw [List.getElem?_set] at hep'
  by_cases he : e = e'
  · subst he
    rw [if_pos rfl, if_pos (getElem?_lt hep)] at hep'
    injection hep' with hep'; subst hep'
    rw [if_pos rfl]
    simp [Epic.accept]
  · rw [if_neg he] at hep' ⊢
    rw [List.append_nil]; exact h e' ep' hep'

theorem LastShown.kept {E E' : List Epic} {L : List Event} (h : LastShown E L) (hk : ClocksKept E E') :
    LastShown E' L := by
  intro e ep' hep'
  have hlt := getElem?_lt hep'
  rw [hk.1] at hlt
  obtain ⟨ep'', g1, g2⟩ := hk.2 e _ (List.getElem?_eq_getElem hlt)
  rw [hep'] at g1; injection g1 with g1; subst g1
  rw [g2.last]
  exact h e _ (List.getElem?_eq_getElem hlt)

/-- `pos i` is the position of the quote on which trade `i` was opened; positions on one epic never decrease. -/
structure OpenedAt (trades : List Trade) (L : List Event) (pos : ℕ → ℕ) : Prop where
  quote : ∀ (i : ℕ) t, trades[i]? = some t → ∃ k, (Spec.quotes t.epic L)[pos i]? = some k ∧ t.dt = k.dt ∧
    t.openValue = Spec.entryQuote t.dir k
  mono : ∀ (i j : ℕ) t u, i < j → trades[i]? = some t → trades[j]? = some u → t.epic = u.epic → pos i ≤ pos j

theorem OpenedAt.kept {l l' : List Trade} {L : List Event} {pos : ℕ → ℕ} (h : OpenedAt l L pos)
    (hlen : l'.length = l.length) (hk : KeptAll l l') : OpenedAt l' L pos := by
  have back : ∀ (i : ℕ) t', l'[i]? = some t' → ∃ t, l[i]? = some t ∧ Kept t t' := by
    intro i t' ht'
    obtain ⟨t, ht⟩ := getElem?_length_eq hlen ht'
    obtain ⟨t'', h1, h2⟩ := hk i t ht
    rw [ht'] at h1; injection h1 with h1; subst h1
    exact ⟨t, ht, h2⟩
  refine ⟨fun i t ht => ?_, fun i j t u hij ht hu he => ?_⟩
  · obtain ⟨t0, h0, hk0⟩ := back i t ht
    rw [hk0.epic, hk0.dt, hk0.openValue, hk0.dir]
    exact h.quote i t0 h0
  · obtain ⟨t0, h0, hk0⟩ := back i t ht
    obtain ⟨u0, h1, hk1⟩ := back j u hu
    exact h.mono i j t0 u0 hij h0 h1 (by rw [← hk0.epic, ← hk1.epic]; exact he)

theorem OpenedAt.append {l : List Trade} {E : List Epic} {L : List Event} {pos : ℕ → ℕ} (h : OpenedAt l L pos)
    (hE : LastShown E L) {t : Trade} {ep : Epic} (hep : E[t.epic]? = some ep) (hdt : t.dt = ep.lastTick.dt)
    (hv : t.openValue = Spec.entryQuote t.dir ep.lastTick) : ∃ pos', OpenedAt (l ++ [t]) L pos' := by
  have hl := hE _ _ hep
  rw [List.getLast?_eq_getElem?] at hl
  refine ⟨fun i => if i < l.length then pos i else (Spec.quotes t.epic L).length - 1, fun i u hu => ?_,
    fun i j x y hij hx hy he => ?_⟩
  · rw [List.getElem?_append] at hu
    split_ifs at hu with hi
    · simp only [if_pos hi]; exact h.quote i u hu
    · have := List.mem_of_getElem? hu
      rw [List.mem_singleton] at this
      subst this
      simp only [if_neg hi]
      exact ⟨ep.lastTick, hl, hdt, hv⟩
  · rw [List.getElem?_append] at hx hy
    split_ifs at hx hy with hi hj hj
    · simp only [if_pos hi, if_pos hj]; exact h.mono i j x y hij hx hy he
    · have := List.mem_of_getElem? hy
      rw [List.mem_singleton] at this
      subst this
      simp only [if_pos hi, if_neg hj]
      obtain ⟨k, hk, -⟩ := h.quote i x hx
      rw [he] at hk
      have := getElem?_lt hk
      omega
    · omega
    · simp only [if_neg hi, if_neg hj]; exact le_refl _

theorem OpenedAt.longer {l : List Trade} {L L' : List Event} {pos : ℕ → ℕ} (h : OpenedAt l L pos)
    (hL : ∀ e, Spec.quotes e L <+: Spec.quotes e L') : OpenedAt l L' pos := by
  refine ⟨fun i t ht => ?_, h.mono⟩
  obtain ⟨k, h1, h2⟩ := h.quote i t ht
  obtain ⟨R, hR⟩ := hL t.epic
  exact ⟨k, by rw [← hR, List.getElem?_append_left (getElem?_lt h1)]; exact h1, h2⟩

/-- The invariant of runs. -/
def OpenInv (w : World) : Prop := LastShown w.epics w.log ∧ ∃ pos, OpenedAt w.trades w.log pos

theorem Prim.openInv {V : Prop} {w w' : World} (h : Prim V w w') (hw : OpenInv w) : OpenInv w' := by
  obtain ⟨h1, pos, h2⟩ := hw
  have he := h.epics
  have hl := h.log
  unfold OpenInv
  rw [he, hl]
  refine ⟨h1, ?_⟩
  rcases h.registry with hq | ⟨t, p, hf, -, rfl⟩ | ⟨t, p, hf, rfl⟩
  · exact ⟨pos, h2.kept hq.len hq.kept⟩
  · obtain ⟨ep, g1, g2, g3⟩ := hf.born
    exact h2.append h1 g1 g2 (by rw [g3]; rfl)
  · rw [(register_epics _ _ _ _).2.2]
    obtain ⟨ep, g1, g2, g3⟩ := hf.born
    exact h2.append h1 g1 g2 (by rw [g3]; rfl)

theorem runCmds_openInv {env : Env} {w : World} (h0 : w.Init) (l : List Cmd) : OpenInv (w.runCmds env l) := by
  refine (run_world (J := fun w => EpicsOk w ∧ OpenInv w) (Q := fun _ => True) ?_ ?_ ?_ ?_ ?_ (env := env) ?_ l
    (fun _ _ => trivial) w ⟨Init.epicsOk h0, .init h0, id, ?_, ?_⟩).2
  · intro w o _ hw
    have hs := step_steps (V := False) (o := o) hw.1 (fun v => v.elim)
    exact ⟨hs.epicsOk hw.1, hs.inv (fun _ _ a b => b.openInv a) hw.2⟩
  · intro w p k hw
    have hs := updateOpenTrades_steps (V := False) w p k
    exact ⟨hs.epicsOk hw.1, hs.inv (fun _ _ a b => b.openInv a) hw.2⟩
  · intro w s e cb ⟨hw, h1, pos, h2⟩
    exact ⟨hw, h1.note s e cb, pos, h2.longer (fun e' => by rw [quotes_note])⟩
  · intro w e ep k hep _ ⟨hw, h1, pos, h2⟩
    refine ⟨?_, h1.accept hep _, pos, h2.longer (fun e' => by rw [quotes_accept]; exact List.prefix_append _ _)⟩
    intro x hx
    rcases List.mem_or_eq_of_mem_set hx with hx | rfl
    · exact hw x hx
    · exact hw ep (List.mem_of_getElem? hep)
  · intro w w' g1 g2 g3 g4 _ g5 ⟨hw, h1, pos, h2⟩
    refine ⟨?_, ?_, pos, ?_⟩
    · intro x hx
      rw [g2]
      have : x.provider ∈ w'.epics.map Epic.provider := List.mem_map_of_mem hx
      rw [g4] at this
      obtain ⟨y, hy, h⟩ := List.mem_map.mp this
      rw [← h]; exact hw y hy
    · rw [g3]; exact h1.kept g5
    · rw [g1, g3]; exact h2
  · intro s cb e w
    generalize env s cb e w = p
    induction p with
    | done => trivial
    | raise _ => trivial
    | act o k ih => exact ⟨trivial, fun a b => ih a b⟩
  · intro i t ht; rw [h0.trades] at ht; cases ht
  · intro i j t u _ ht; rw [h0.trades] at ht; cases ht

end
end Estrade
